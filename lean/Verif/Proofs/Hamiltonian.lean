import Verif.Proofs.Make
import Verif.Proofs.Bits
import Verif.Props.Entry
import Verif.Props.TimeEvolution
import Verif.Props.HamiltonianTerm

/-! # Hamiltonians: the objects, their sums and the entries made from them -/

namespace Stoq

open World Matrix UnitaryDefinitions

/-! ## Gates on all qubits -/

theorem gather_range {n c k : ℕ} (hk : k ≤ n) (hc : c < 2 ^ n) : gather n (List.range k) c = c / 2 ^ (n - k) := by
  induction k with
  | zero => simp [gather, Nat.div_eq_of_lt hc]
  | succ k ih =>
    have ih := ih (by omega)
    unfold gather at ih ⊢
    rw [List.range_succ, List.foldl_append, ih]
    simp only [List.foldl_cons, List.foldl_nil, qubit]
    have h1 : n - k = (n - 1 - k) + 1 := by omega
    have h2 : n - (k + 1) = n - 1 - k := by omega
    rw [h1, h2, Nat.pow_succ, ← Nat.div_div_eq_div_mul]
    omega

theorem op_full {n : ℕ} {e : EntryVal} (h : e.applyTo = List.range n) :
    e.op n = e.unitary.matrix.toMatrix (2 ^ n) := by
  ext r c
  have hag : AgreeOff n e.applyTo r c := fun q hq hn => absurd (by rw [h]; exact List.mem_range.mpr hq) hn
  have h1 : e.op n r c = e.unitary.matrix.val (gather n e.applyTo r) (gather n e.applyTo c) := by
    change (if AgreeOff n e.applyTo r c then e.unitary.matrix.val (gather n e.applyTo r) (gather n e.applyTo c)
      else 0) = _
    rw [if_pos hag]
  rw [h1, h, gather_range le_rfl r.2, gather_range le_rfl c.2]
  simp [Arr.toMatrix]

/-! ## Hamiltonian objects -/

theorem intLog2_pow (n : ℕ) : intLog2 (2 ^ n) = n := log2_pow n

section Of

variable {n : ℕ} {Ms : List (Matrix (Fin (2 ^ n)) (Fin (2 ^ n)) ℂ)} {H : Hamiltonian}

/-- What is known of the terms. -/
structure TermIs {d : ℕ} (t : HamiltonianTerm) (M : Matrix (Fin d) (Fin d) ℂ) : Prop where
  dim : t.dimension = d
  herm : M.IsHermitian
  is : t.getMatrix.Is M
  pos : 0 < t.coefficient
  coeff : t.coefficient = maxAbsEigenvalue M
  norm : ∃ N, t.normalizedMatrix.Is N ∧ M = (t.coefficient : ℂ) • N ∧ N.IsHermitian

theorem Hamiltonian.Of.terms (h : H.Of Ms) : H.dimension = 2 ^ n ∧ H.terms ≠ [] ∧ List.Forall₂ TermIs H.terms Ms := by
  obtain ⟨arrs, terms, h1, h2, h3⟩ := h
  have h4 : List.Forall₂ TermIs terms Ms := by
    clear h3
    induction h1 generalizing terms with
    | nil => cases h2; exact .nil
    | cons ha _ ih =>
      rcases h2 with - | ⟨hb, hrest⟩
      refine .cons ?_ (ih _ hrest)
      obtain ⟨g1, g2, g3, -, N, g4, g5, -, g6⟩ := C45_normalisation ha.1 hb
      exact ⟨g1, ha.2, g2, g3, (g6 ha.2).2.1.csSup_eq.symm, N, g4, g5, (g6 ha.2).1⟩
  cases terms with
  | nil => cases h3
  | cons t0 rest =>
    unfold Hamiltonian.new at h3
    simp only [assertE_bind_eq_ok, pure_except, Except.ok.injEq] at h3
    obtain ⟨-, rfl⟩ := h3
    rcases h4 with - | ⟨h5, h6⟩
    exact ⟨h5.dim, by simp, .cons h5 h6⟩

theorem Arr.sum_is {d : ℕ} {as : List Arr} {Ns : List (Matrix (Fin d) (Fin d) ℂ)}
    (h : List.Forall₂ (fun a N => a.Is N) as Ns) : (Arr.sum d as).Is Ns.sum := by
  refine ⟨rfl, rfl, ?_⟩
  ext i j
  simp only [Arr.sum, Arr.toMatrix]
  induction h with
  | nil => simp
  | cons h1 _ ih =>
    rw [List.map_cons, List.sum_cons, ih, List.sum_cons, Matrix.add_apply, ← h1.2.2]
    rfl

theorem herm_sum {d : ℕ} {Ns : List (Matrix (Fin d) (Fin d) ℂ)} (h : ∀ N ∈ Ns, N.IsHermitian) :
    Ns.sum.IsHermitian := by
  induction Ns with
  | nil => exact isHermitian_zero
  | cons N Ns ih =>
    rw [List.sum_cons]
    exact (h N (by simp)).add (ih fun M hM => h M (by simp [hM]))

theorem Hamiltonian.Of.total (h : H.Of Ms) : H.totalMatrix.Is Ms.sum ∧ Ms.sum.IsHermitian := by
  obtain ⟨h1, -, h2⟩ := h.terms
  constructor
  · unfold Hamiltonian.totalMatrix
    rw [h1]
    refine Arr.sum_is ?_
    rw [List.forall₂_map_left_iff]
    exact h2.imp fun _ _ h => h.is
  · refine herm_sum fun N hN => ?_
    obtain ⟨i, hi⟩ := List.mem_iff_getElem?.mp hN
    rcases forall₂_getElem? h2 i with ⟨-, h3⟩ | ⟨a, b, -, h3, h4⟩
    · rw [h3] at hi; cases hi
    · rw [h3] at hi; cases hi
      exact h4.herm

theorem Hamiltonian.Of.get (h : H.Of Ms) {i : ℕ} {t : HamiltonianTerm} (ht : H.terms[i]? = some t) :
    ∃ M, Ms[i]? = some M ∧ TermIs t M := by
  obtain ⟨-, -, h2⟩ := h.terms
  rcases forall₂_getElem? h2 i with ⟨h3, -⟩ | ⟨a, b, h3, h4, h5⟩
  · rw [h3] at ht; cases ht
  · rw [h3] at ht; cases ht
    exact ⟨b, h4, h5⟩

theorem Hamiltonian.Of.coefficients (h : H.Of Ms) : H.terms.map (·.coefficient) = Ms.map maxAbsEigenvalue := by
  obtain ⟨-, -, h2⟩ := h.terms
  clear h
  generalize H.terms = ts at h2 ⊢
  induction h2 with
  | nil => rfl
  | cons h3 _ ih => rw [List.map_cons, List.map_cons, ih, h3.coeff]

theorem Hamiltonian.Of.herm (h : H.Of Ms) : ∀ M ∈ Ms, M.IsHermitian ∧ 0 < maxAbsEigenvalue M := by
  intro M hM
  obtain ⟨i, hi⟩ := List.mem_iff_getElem?.mp hM
  rcases forall₂_getElem? h.terms.2.2 i with ⟨-, h3⟩ | ⟨a, b, -, h3, h4⟩
  · rw [h3] at hi; cases hi
  · rw [h3] at hi; cases hi
    exact ⟨h4.herm, h4.coeff ▸ h4.pos⟩

theorem Hamiltonian.Of.length (h : H.Of Ms) : H.terms.length = Ms.length := h.terms.2.2.length_eq

theorem Hamiltonian.Of.applyTo (h : H.Of Ms) : H.applyTo = (List.range n).map Int.ofNat := by
  unfold Hamiltonian.applyTo Hamiltonian.getQubitCount
  rw [h.terms.1, intLog2_pow]

end Of

/-! ## The entries -/

/-- An entry on all `m` qubits whose unitary is a time evolution. -/
def EvolveEntry (τ : Arith) (m : ℕ) (P : Arr → ℝ → String → Prop) (v : EntryVal) : Prop :=
  v.applyTo = List.range m ∧ ∃ h t s, P h t s ∧ timeEvolution τ h t s = .ok v.unitary

theorem entryNew_range {u : Unitary} {m : ℕ} {v : EntryVal}
    (h : EntryVal.new u ((List.range m).map Int.ofNat) = .ok v) :
    v.WF ∧ v.unitary = u ∧ v.applyTo = List.range m :=
  ⟨(entryNew_ok h).1, (entryNew_ok h).2, map_ofNat_inj (entryNew_applyTo h)⟩

theorem entryNew_range_eq {u : Unitary} {n : ℕ} (hn : 1 ≤ n) (hu : u.Exact (2 ^ n)) :
    EntryVal.new u ((List.range n).map Int.ofNat) = .ok ⟨u, List.range n⟩ :=
  entry_new_ok (by intro h; have := congrArg List.length h; simp at this; omega) List.nodup_range
    (by rw [hu.dim, List.length_range])

theorem Evolves.of {n : ℕ} (hn : 1 ≤ n) {h : Arr} {M : Matrix (Fin (2 ^ n)) (Fin (2 ^ n)) ℂ} (hh : h.Is M)
    (hM : M.IsHermitian) (t : ℝ) (s : String) : ∃ u, timeEvolution 0 h t s = .ok u ∧
      EntryVal.new u ((List.range n).map Int.ofNat) = .ok ⟨u, List.range n⟩ ∧ Evolves n s M t ⟨u, List.range n⟩ := by
  obtain ⟨u, h1, h2, h3, -, h4, h5, h6⟩ := C29_evolution (by positivity) hh hM t s
  exact ⟨u, h1, entryNew_range_eq hn h2, rfl, h2, h3, h4, h5, h6⟩

theorem EvolveEntry.evolves {n : ℕ} (hn : 1 ≤ n) {P : Arr → ℝ → String → Prop}
    (hP : ∀ h t s, P h t s → ∃ M : Matrix (Fin (2 ^ n)) (Fin (2 ^ n)) ℂ, h.Is M ∧ M.IsHermitian) {v : EntryVal}
    (hv : EvolveEntry 0 n P v) :
    ∃ (h : Arr) (t : ℝ) (s : String) (M : Matrix (Fin (2 ^ n)) (Fin (2 ^ n)) ℂ), P h t s ∧ h.Is M ∧ Evolves n s M t v := by
  obtain ⟨h1, h, t, s, h2, h3⟩ := hv
  obtain ⟨M, h4, h5⟩ := hP h t s h2
  obtain ⟨u, g1, -, g2⟩ := Evolves.of hn h4 h5 t s
  rw [g1] at h3
  obtain ⟨w, q⟩ := v
  cases h3
  cases h1
  exact ⟨h, t, s, M, h2, h4, g2⟩

theorem Evolves.good {n : ℕ} {s : String} {M : Matrix (Fin (2 ^ n)) (Fin (2 ^ n)) ℂ} {t : ℝ} {e : EntryVal}
    (h : Evolves n s M t e) : e.Fits n ∧ e.Exact := by
  constructor
  · intro q hq
    rw [h.qubits] at hq
    exact List.mem_range.mp hq
  · unfold EntryVal.Exact
    rw [h.qubits, List.length_range]
    exact h.exact

/-- The circuit of evolutions is the product of the evolutions, up to phase. -/
theorem circuit_evolves {n : ℕ} {es : List EntryVal} {ps : List (Matrix (Fin (2 ^ n)) (Fin (2 ^ n)) ℂ × ℝ)}
    (h : List.Forall₂ (fun e p => ∃ s, Evolves n s p.1 p.2 e) es ps) :
    SamePhase (circuit n es) ((ps.map fun p => evolution p.1 p.2).reverse.prod) := by
  induction h with
  | nil => exact SamePhase.refl _
  | cons h1 _ ih =>
    obtain ⟨s, h1⟩ := h1
    rw [List.map_cons, List.reverse_cons, List.prod_append, List.prod_singleton]
    refine ih.mul ?_
    rw [op_full h1.qubits]
    exact h1.phase

theorem PyM.lift_ok {α : Type} (a : α) (r : Rng) : (PyM.lift (Except.ok a) : PyM Rng α) r = (.ok a, r) := rfl

/-! ## `get_ideal_sequence` -/

namespace Hamiltonian

noncomputable def idealVals (H : Hamiltonian) (u : Unitary) : ℕ → PyM Rng (List EntryVal)
  | 0 => pure []
  | k + 1 => do
    let v ← PyM.lift (EntryVal.new u H.applyTo)
    let vs ← idealVals H u k
    return v :: vs

theorem idealEntries_mk {τ : Arith} {H : Hamiltonian} {P : Arr → ℝ → String → Prop} {u : Unitary} {h : Arr} {t : ℝ}
    {s : String} (hP : P h t s) (hu : timeEvolution τ h t s = .ok u) (k : ℕ) :
    MkOk (EvolveEntry τ H.getQubitCount P) (H.idealEntries u k) (H.idealVals u k) := by
  induction k with
  | zero => exact MkOk.nil
  | succ k ih =>
    unfold idealEntries idealVals
    refine MkOk.cons (fun v hv => ?_) ih
    obtain ⟨h1, h2, h3⟩ := entryNew_range hv
    exact ⟨h1, h3, h, t, s, hP, h2 ▸ hu⟩

theorem idealVals_ok {H : Hamiltonian} {u : Unitary} {k : ℕ} {vs : List EntryVal} {r r' : Rng}
    (h : H.idealVals u k r = (.ok vs, r')) : r' = r ∧ vs.length = k ∧ ∀ v ∈ vs, EntryVal.new u H.applyTo = .ok v := by
  induction k generalizing vs with
  | zero => cases h; simp
  | succ k ih =>
    unfold idealVals at h
    rcases hv : EntryVal.new u H.applyTo with e | v
    · rw [hv] at h; cases h
    · rw [hv] at h
      obtain ⟨v', r1, h1, h2⟩ := PyM.bind_eq_ok_iff.mp h
      cases h1
      obtain ⟨vs', r2, h3, h4⟩ := PyM.bind_eq_ok_iff.mp h2
      cases h4
      obtain ⟨rfl, h5, h6⟩ := ih h3
      refine ⟨rfl, by simp [h5], ?_⟩
      intro x hx
      rcases List.mem_cons.mp hx with rfl | hx
      · rfl
      · rw [← hv]; exact h6 x hx

theorem idealVals_eq {H : Hamiltonian} {u : Unitary} {v : EntryVal} (hv : EntryVal.new u H.applyTo = .ok v) (k : ℕ)
    (r : Rng) : H.idealVals u k r = (.ok (List.replicate k v), r) := by
  induction k with
  | zero => rfl
  | succ k ih =>
    unfold idealVals
    rw [hv]
    have e : (PyM.lift (Except.ok v) : PyM Rng EntryVal) r = (.ok v, r) := rfl
    rw [PyM.bind_of_ok e, PyM.bind_of_ok ih]
    rfl

/-! ## `get_trotter_sequence` -/

noncomputable def trotterStepVals (τ : Arith) (H : Hamiltonian) (ts : ℝ) : List ℕ → PyM Rng (List EntryVal)
  | [] => pure []
  | i :: rest =>
    match H.terms[i]? with
    | none => PyM.raise .indexError
    | some term => do
      let u ← PyM.lift (timeEvolution τ term.getMatrix ts (toString i))
      let v ← PyM.lift (EntryVal.new u H.applyTo)
      let vs ← trotterStepVals τ H ts rest
      return v :: vs

/-- The order of the terms in one step. -/
noncomputable def order (randomize : Bool) (indices : List ℕ) : PyM Rng (List ℕ) :=
  if randomize then Rng.shuffle indices else pure indices

theorem order_ok (randomize : Bool) (is : List ℕ) (r : Rng) : ∃ is' r', order randomize is r = (.ok is', r') ∧
    is'.Perm is ∧ (randomize = false → r' = r ∧ is' = is) := by
  cases randomize
  · exact ⟨is, r, rfl, .refl _, fun _ => ⟨rfl, rfl⟩⟩
  · obtain ⟨is', r', h1, h2⟩ := Rng.shuffle_perm is r
    exact ⟨is', r', h1, h2, fun h => (by cases h)⟩

noncomputable def trotterVals (τ : Arith) (H : Hamiltonian) (ts : ℝ) (randomize : Bool) :
    ℕ → List ℕ → PyM Rng (List EntryVal)
  | 0, _ => pure []
  | k + 1, indices => do
    let indices ← order randomize indices
    let vs ← trotterStepVals τ H ts indices
    let more ← trotterVals τ H ts randomize k indices
    return vs ++ more

/-- The evolutions Trotter steps are made of. -/
def TrotterP (H : Hamiltonian) (ts : ℝ) (h : Arr) (t : ℝ) (s : String) : Prop :=
  t = ts ∧ ∃ (i : ℕ) (term : HamiltonianTerm), H.terms[i]? = some term ∧ h = term.getMatrix ∧ s = toString i

theorem trotterStep_mk {τ : Arith} {H : Hamiltonian} (ts : ℝ) (is : List ℕ) :
    MkOk (EvolveEntry τ H.getQubitCount (H.TrotterP ts)) (H.trotterStep τ ts is) (H.trotterStepVals τ ts is) := by
  induction is with
  | nil => exact MkOk.nil
  | cons i rest ih =>
    unfold trotterStep trotterStepVals
    rcases ht : H.terms[i]? with _ | term
    · exact MkOk.raise _
    · refine MkOk.lift fun u hu => MkOk.cons (fun v hv => ?_) ih
      obtain ⟨h1, h2, h3⟩ := entryNew_range hv
      exact ⟨h1, h3, _, _, _, ⟨rfl, i, term, ht, rfl, rfl⟩, h2 ▸ hu⟩

theorem trotterLoop_mk {τ : Arith} {H : Hamiltonian} (ts : ℝ) (randomize : Bool) (k : ℕ) (is : List ℕ) :
    MkOk (EvolveEntry τ H.getQubitCount (H.TrotterP ts)) (H.trotterLoop τ ts randomize k is)
      (H.trotterVals τ ts randomize k is) := by
  induction k generalizing is with
  | zero => exact MkOk.nil
  | succ k ih =>
    unfold trotterLoop trotterVals
    cases randomize
    · simp only [Bool.false_eq_true, if_false, PyM.pure_bind', order]
      exact (trotterStep_mk ts is).append (ih is)
    · simp only [if_true, order]
      exact MkOk.withRng fun is' _ _ _ => (trotterStep_mk ts is').append (ih is')

/-- The entry made from the term with index `i`. -/
def TrotterEntry (τ : Arith) (H : Hamiltonian) (ts : ℝ) (i : ℕ) (v : EntryVal) : Prop :=
  ∃ term u, H.terms[i]? = some term ∧ timeEvolution τ term.getMatrix ts (toString i) = .ok u ∧
    EntryVal.new u H.applyTo = .ok v

theorem trotterStepVals_ok {τ : Arith} {H : Hamiltonian} {ts : ℝ} {is : List ℕ} {r r' : Rng} {vs : List EntryVal}
    (h : H.trotterStepVals τ ts is r = (.ok vs, r')) : r' = r ∧ List.Forall₂ (H.TrotterEntry τ ts) is vs := by
  induction is generalizing vs with
  | nil => cases h; exact ⟨rfl, .nil⟩
  | cons i rest ih =>
    unfold trotterStepVals at h
    rcases ht : H.terms[i]? with _ | term
    · rw [ht] at h; cases h
    rw [ht] at h
    simp only at h
    obtain ⟨u, r1, h1, h⟩ := PyM.bind_eq_ok_iff.mp h
    obtain ⟨v, r2, h2, h⟩ := PyM.bind_eq_ok_iff.mp h
    obtain ⟨more, r3, h3, h⟩ := PyM.bind_eq_ok_iff.mp h
    cases h
    unfold PyM.lift at h1 h2
    obtain ⟨hu, rfl⟩ := Prod.mk.inj h1
    obtain ⟨hv, rfl⟩ := Prod.mk.inj h2
    obtain ⟨rfl, h4⟩ := ih h3
    exact ⟨rfl, .cons ⟨term, u, ht, hu, hv⟩ h4⟩

theorem trotterStepVals_eq {τ : Arith} {H : Hamiltonian} {ts : ℝ} {is : List ℕ}
    (h : ∀ i ∈ is, ∃ v, H.TrotterEntry τ ts i v) (r : Rng) : ∃ vs, H.trotterStepVals τ ts is r = (.ok vs, r) := by
  induction is with
  | nil => exact ⟨[], rfl⟩
  | cons i rest ih =>
    obtain ⟨v, term, u, h1, h2, h3⟩ := h i (by simp)
    obtain ⟨vs, h4⟩ := ih fun j hj => h j (by simp [hj])
    refine ⟨v :: vs, ?_⟩
    unfold trotterStepVals
    rw [h1]
    simp only
    rw [h2, PyM.bind_of_ok (PyM.lift_ok u r), h3, PyM.bind_of_ok (PyM.lift_ok v r), PyM.bind_of_ok h4]
    rfl

/-- The orders in which the terms are visited, one for each step. -/
theorem trotterVals_ok {τ : Arith} {H : Hamiltonian} {ts : ℝ} {randomize : Bool} {k : ℕ} {is : List ℕ} {r r' : Rng}
    {vs : List EntryVal} (h : H.trotterVals τ ts randomize k is r = (.ok vs, r')) :
    ∃ orders : List (List ℕ), orders.length = k ∧ (∀ o ∈ orders, o.Perm is) ∧
      (randomize = false → r' = r ∧ ∀ o ∈ orders, o = is) ∧
      List.Forall₂ (H.TrotterEntry τ ts) orders.flatten vs := by
  induction k generalizing is vs r with
  | zero => cases h; exact ⟨[], rfl, by simp, fun _ => ⟨rfl, by simp⟩, .nil⟩
  | succ k ih =>
    unfold trotterVals at h
    obtain ⟨is', r1, h1, h⟩ := PyM.bind_eq_ok_iff.mp h
    obtain ⟨v1, r2, h2, h⟩ := PyM.bind_eq_ok_iff.mp h
    obtain ⟨more, r3, h3, h⟩ := PyM.bind_eq_ok_iff.mp h
    cases h
    obtain ⟨rfl, h4⟩ := trotterStepVals_ok h2
    obtain ⟨orders, g1, g2, g3, g4⟩ := ih h3
    have hperm : is'.Perm is ∧ (randomize = false → r2 = r ∧ is' = is) := by
      obtain ⟨is2, r4, g5, g6⟩ := order_ok randomize is r
      rw [h1] at g5
      cases g5
      exact g6
    refine ⟨is' :: orders, by simp [g1], ?_, ?_, ?_⟩
    · intro o ho
      rcases List.mem_cons.mp ho with rfl | ho
      · exact hperm.1
      · exact (g2 o ho).trans hperm.1
    · intro hr
      obtain ⟨rfl, rfl⟩ := hperm.2 hr
      obtain ⟨rfl, g5⟩ := g3 hr
      refine ⟨rfl, ?_⟩
      intro o ho
      rcases List.mem_cons.mp ho with rfl | ho
      · rfl
      · exact g5 o ho
    · rw [List.flatten_cons]
      exact List.rel_append h4 g4

theorem trotterVals_eq {τ : Arith} {H : Hamiltonian} {ts : ℝ} {randomize : Bool} {k : ℕ} {is : List ℕ}
    (h : ∀ i ∈ is, ∃ v, H.TrotterEntry τ ts i v) (r : Rng) :
    ∃ vs r', H.trotterVals τ ts randomize k is r = (.ok vs, r') := by
  induction k generalizing is r with
  | zero => exact ⟨[], r, rfl⟩
  | succ k ih =>
    obtain ⟨is', r1, h1, h2, -⟩ := order_ok randomize is r
    have h' : ∀ i ∈ is', ∃ v, H.TrotterEntry τ ts i v := fun i hi => h i (h2.mem_iff.mp hi)
    obtain ⟨v1, h3⟩ := trotterStepVals_eq h' r1
    obtain ⟨more, r2, h4⟩ := ih h' r1
    refine ⟨v1 ++ more, r2, ?_⟩
    unfold trotterVals
    rw [PyM.bind_of_ok h1, PyM.bind_of_ok h3, PyM.bind_of_ok h4]
    rfl

/-- Every sequence of orders is the outcome for some random numbers. -/
theorem trotterVals_orders {τ : Arith} {H : Hamiltonian} {ts : ℝ} (orders : List (List ℕ)) {is : List ℕ}
    (h : ∀ o ∈ orders, o.Perm is) : ∃ f : ℕ → ℕ, ∀ r : Rng, (∀ k, r.nat (r.npos + k) = f k) → ∀ vs r',
      H.trotterVals τ ts true orders.length is r = (.ok vs, r') →
      List.Forall₂ (H.TrotterEntry τ ts) orders.flatten vs := by
  induction orders generalizing is with
  | nil =>
    refine ⟨fun _ => 0, fun r _ vs r' hv => ?_⟩
    cases hv
    exact .nil
  | cons o os ih =>
    have ho := h o (by simp)
    obtain ⟨f, hf⟩ := Rng.shuffle_surj is o ho
    obtain ⟨g, hg⟩ := ih (is := o) fun o' ho' => (h o' (by simp [ho'])).trans ho.symm
    refine ⟨fun k => if k < is.length - 1 then f k else g (k - (is.length - 1)), fun r hr vs r' hv => ?_⟩
    have hsh : Rng.shuffle is r = (.ok o, { r with npos := r.npos + (is.length - 1) }) := by
      refine Prod.ext ?_ (Rng.shuffle_pos is r)
      rw [← hf ⟨r.unif, fun k => f k, 0, 0⟩ fun k => by simp]
      refine Rng.shuffleFrom_congr _ _ _ _ fun k hk => ?_
      rw [hr k]
      simp [hk]
    rw [List.length_cons] at hv
    unfold trotterVals at hv
    have hord : order true is r = (.ok o, { r with npos := r.npos + (is.length - 1) }) := hsh
    rw [PyM.bind_of_ok hord] at hv
    obtain ⟨v1, r2, h2, hv⟩ := PyM.bind_eq_ok_iff.mp hv
    obtain ⟨more, r3, h3, hv⟩ := PyM.bind_eq_ok_iff.mp hv
    cases hv
    obtain ⟨rfl, h4⟩ := trotterStepVals_ok h2
    rw [List.flatten_cons]
    refine List.rel_append h4 (hg _ (fun k => ?_) _ _ h3)
    have := hr (is.length - 1 + k)
    dsimp only at this
    rw [if_neg (by omega), Nat.add_sub_cancel_left] at this
    rw [← this]
    simp only
    congr 1
    omega

/-! ## `get_qdrift_sequence` -/

noncomputable def qdriftVals (τ : Arith) (H : Hamiltonian) (ts : ℝ) : ℕ → PyM Rng (List EntryVal)
  | 0 => pure []
  | k + 1 => do
    let i ← Rng.choiceP H.terms.length H.probCoefficients
    match H.terms[i]? with
    | none => PyM.raise .indexError
    | some term => do
      let u ← PyM.lift (timeEvolution τ term.normalizedMatrix ts (toString i ++ " λ/N"))
      let v ← PyM.lift (EntryVal.new u H.applyTo)
      let vs ← qdriftVals τ H ts k
      return v :: vs

def QdriftP (H : Hamiltonian) (ts : ℝ) (h : Arr) (t : ℝ) (s : String) : Prop :=
  t = ts ∧ ∃ (i : ℕ) (term : HamiltonianTerm), H.terms[i]? = some term ∧ h = term.normalizedMatrix ∧ s = toString i ++ " λ/N"

theorem qdriftLoop_mk {τ : Arith} {H : Hamiltonian} (ts : ℝ) (k : ℕ) :
    MkOk (EvolveEntry τ H.getQubitCount (H.QdriftP ts)) (H.qdriftLoop τ ts k) (H.qdriftVals τ ts k) := by
  induction k with
  | zero => exact MkOk.nil
  | succ k ih =>
    unfold qdriftLoop qdriftVals
    refine MkOk.withRng fun i _ _ _ => ?_
    rcases ht : H.terms[i]? with _ | term
    · exact MkOk.raise _
    · refine MkOk.lift fun u hu => MkOk.cons (fun v hv => ?_) ih
      obtain ⟨h1, h2, h3⟩ := entryNew_range hv
      exact ⟨h1, h3, _, _, _, ⟨rfl, i, term, ht, rfl, rfl⟩, h2 ▸ hu⟩

/-- The entry made from the term with index `i`. -/
def QdriftEntry (τ : Arith) (H : Hamiltonian) (ts : ℝ) (i : ℕ) (v : EntryVal) : Prop :=
  ∃ term u, H.terms[i]? = some term ∧ timeEvolution τ term.normalizedMatrix ts (toString i ++ " λ/N") = .ok u ∧
    EntryVal.new u H.applyTo = .ok v

theorem choiceP_chosen {m : ℕ} {p : List ℝ} {r r' : Rng} {i : ℕ} (h : Rng.choiceP m p r = (.ok i, r')) :
    r' = { r with upos := r.upos + 1 } ∧ ChosenBy p (r.unif r.upos) i := by
  by_cases hv : Rng.ValidP m p
  · rw [Rng.choiceP_eq hv] at h
    obtain ⟨h1, rfl⟩ := Prod.mk.inj h
    obtain ⟨h2, h3, h4⟩ := Rng.search_spec hv (r.unif r.upos) (Except.ok.inj h1)
    exact ⟨rfl, by rw [hv.len]; exact h2, h3, h4⟩
  · rw [Rng.choiceP_invalid hv] at h
    cases h

theorem qdriftVals_ok {τ : Arith} {H : Hamiltonian} {ts : ℝ} {k : ℕ} {r r' : Rng} {vs : List EntryVal}
    (h : H.qdriftVals τ ts k r = (.ok vs, r')) :
    r' = { r with upos := r.upos + k } ∧ ∃ idx : List ℕ, idx.length = k ∧
      (∀ (j i : ℕ), idx[j]? = some i → ChosenBy H.probCoefficients (r.unif (r.upos + j)) i) ∧
      List.Forall₂ (H.QdriftEntry τ ts) idx vs := by
  induction k generalizing vs r with
  | zero => cases h; exact ⟨rfl, [], rfl, by simp, .nil⟩
  | succ k ih =>
    unfold qdriftVals at h
    obtain ⟨i, r1, h0, h⟩ := PyM.bind_eq_ok_iff.mp h
    obtain ⟨rfl, hch⟩ := choiceP_chosen h0
    rcases ht : H.terms[i]? with _ | term
    · rw [ht] at h; cases h
    rw [ht] at h
    simp only at h
    obtain ⟨u, r1, h1, h⟩ := PyM.bind_eq_ok_iff.mp h
    obtain ⟨v, r2, h2, h⟩ := PyM.bind_eq_ok_iff.mp h
    obtain ⟨more, r3, h3, h⟩ := PyM.bind_eq_ok_iff.mp h
    cases h
    unfold PyM.lift at h1 h2
    obtain ⟨hu, rfl⟩ := Prod.mk.inj h1
    obtain ⟨hv, rfl⟩ := Prod.mk.inj h2
    obtain ⟨rfl, idx, h4, h5, h6⟩ := ih h3
    refine ⟨by simp [Nat.add_assoc, Nat.add_comm 1], i :: idx, by simp [h4], ?_, .cons ⟨term, u, ht, hu, hv⟩ h6⟩
    intro j i' hj
    cases j with
    | zero => cases hj; exact hch
    | succ j =>
      have := h5 j i' hj
      simp only at this
      rwa [Nat.add_assoc, Nat.add_comm 1] at this

theorem qdriftVals_eq {τ : Arith} {H : Hamiltonian} {ts : ℝ} (hv : Rng.ValidP H.terms.length H.probCoefficients)
    (h : ∀ i < H.terms.length, ∃ v, H.QdriftEntry τ ts i v) (k : ℕ) (r : Rng) :
    ∃ vs r', H.qdriftVals τ ts k r = (.ok vs, r') := by
  induction k generalizing r with
  | zero => exact ⟨[], r, rfl⟩
  | succ k ih =>
    obtain ⟨i, r1, h1⟩ : ∃ i r1, Rng.choiceP H.terms.length H.probCoefficients r = (.ok i, r1) :=
      ⟨_, _, Rng.choiceP_eq hv r⟩
    have hi := (choiceP_chosen h1).2.1
    rw [hv.len] at hi
    obtain ⟨v, term, u, h2, h3, h4⟩ := h i hi
    obtain ⟨more, r2, h5⟩ := ih r1
    refine ⟨v :: more, r2, ?_⟩
    unfold qdriftVals
    rw [PyM.bind_of_ok h1, h2]
    simp only
    rw [h3, PyM.bind_of_ok (PyM.lift_ok u r1), h4, PyM.bind_of_ok (PyM.lift_ok v r1), PyM.bind_of_ok h5]
    rfl

end Hamiltonian

end Stoq
