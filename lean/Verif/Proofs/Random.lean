import Verif.Spec.Compile
import Verif.Proofs.Rng
import Verif.Proofs.History
import Verif.Proofs.Parameterized
import Verif.Model.Compiler

/-! # Random gates -/

namespace Stoq

open Compiler

theorem PyM.bind_assoc' {σ α β γ : Type} (m : PyM σ α) (f : α → PyM σ β) (g : β → PyM σ γ) :
    (m >>= f >>= g) = (m >>= fun a => f a >>= g) := by
  funext s
  rw [PyM.bind_apply, PyM.bind_apply, PyM.bind_apply]
  rcases m s with ⟨_ | _, _⟩
  · rfl
  · exact (PyM.bind_apply _ _ _).symm

theorem PyM.bind_pure' {σ α : Type} (m : PyM σ α) : (m >>= fun a => pure a) = m := by
  funext s
  rw [PyM.bind_apply]
  rcases m s with ⟨_ | _, _⟩ <;> rfl

theorem PyM.pure_bind' {σ α β : Type} (a : α) (f : α → PyM σ β) : (pure a >>= f) = f a := rfl

/-! ## Parameter values -/

theorem randomValue_mem {p : Parameter} (h : p.minValue ≤ p.maxValue) (r : Rng) :
    ∃ v, p.randomValue r = (.ok v, { r with upos := r.upos + 1 }) ∧ p.minValue ≤ v ∧ v ≤ p.maxValue := by
  refine ⟨_, rfl, ?_, ?_⟩
  · have h1 := (r.unif r.upos).2.1
    have h2 : 0 ≤ p.maxValue - p.minValue := by linarith
    have := mul_nonneg h1 h2
    linarith
  · have h1 := (r.unif r.upos).2.2
    have h2 : 0 ≤ p.maxValue - p.minValue := by linarith
    have := mul_le_mul_of_nonneg_right h1.le h2
    linarith

theorem randomParameterValues_length {ps : List Parameter} {r r' : Rng} {vs : List ℝ}
    (h : randomParameterValues ps r = (.ok vs, r')) : vs.length = ps.length := by
  induction ps generalizing r vs r' with
  | nil =>
    simp only [randomParameterValues, PyM.pure_apply, Prod.mk.injEq, Except.ok.injEq] at h
    rw [← h.1]; rfl
  | cons p ps ih =>
    unfold randomParameterValues at h
    rw [PyM.bind_eq_ok_iff] at h
    obtain ⟨v, r1, -, h⟩ := h
    rw [PyM.bind_eq_ok_iff] at h
    obtain ⟨vs', r2, h2, h⟩ := h
    simp only [PyM.pure_apply, Prod.mk.injEq, Except.ok.injEq] at h
    rw [← h.1, List.length_cons, ih h2, List.length_cons]

theorem randomParameterValues_ok (ps : List Parameter) (h : ∀ p ∈ ps, p.minValue ≤ p.maxValue) (r : Rng) :
    ∃ vs r', randomParameterValues ps r = (.ok vs, r') ∧ vs.length = ps.length ∧
      ∀ pv ∈ ps.zip vs, pv.1.minValue ≤ pv.2 ∧ pv.2 ≤ pv.1.maxValue := by
  induction ps generalizing r with
  | nil => exact ⟨[], r, rfl, rfl, by simp⟩
  | cons p ps ih =>
    obtain ⟨v, h1, h2, h3⟩ := randomValue_mem (h p (by simp)) r
    obtain ⟨vs, r', h4, h5, h6⟩ := ih (fun q hq => h q (by simp [hq])) { r with upos := r.upos + 1 }
    refine ⟨v :: vs, r', ?_, by simp [h5], ?_⟩
    · unfold randomParameterValues
      rw [PyM.bind_of_ok h1, PyM.bind_of_ok h4]; rfl
    · intro pv hpv
      rw [List.zip_cons_cons, List.mem_cons] at hpv
      rcases hpv with rfl | hpv
      · exact ⟨h2, h3⟩
      · exact h6 pv hpv

/-! ## Splitting `create_random_sequence_entry` -/

/-- The unitary of a chosen primitive (compiler.py:225-230). -/
noncomputable def pickUnitary (τ : Arith) (prim : Primitive) : PyM Rng Unitary :=
  match prim.unitary with
  | .inl u => pure u
  | .inr pu => do
    let values ← randomParameterValues pu.parameters
    PyM.lift (pu.asUnitary τ values)

/-- The qubits of a chosen primitive and the entry (compiler.py:232-244). -/
noncomputable def pickQubits (m : ℕ) (prim : Primitive) (u : Unitary) : PyM Rng EntryVal :=
  match prim.allowedApplyTo with
  | some allowed => do
    let k ← Rng.choice allowed.length
    match allowed[k]? with
    | none => PyM.raise .indexError
    | some applyTo => PyM.lift (EntryVal.new u applyTo)
  | none => do
    let applyTo ← Rng.choiceNoReplace m (intLog2 u.getDimension)
    PyM.lift (EntryVal.new u (applyTo.map Int.ofNat))

theorem createRandomEntryVal_eq (τ : Arith) (D : ℕ) (prims : List Primitive) (probs : Option (List ℝ)) :
    createRandomEntryVal τ D prims probs = (do
      let i ← Rng.choiceOpt (prims.filter usable).length probs
      match (prims.filter usable)[i]? with
      | none => PyM.raise .indexError
      | some prim => do
        let u ← pickUnitary τ prim
        pickQubits (intLog2 D) prim u) := by
  unfold createRandomEntryVal
  refine congrArg (fun f => Rng.choiceOpt (prims.filter usable).length probs >>= f) (funext fun i => ?_)
  rcases (prims.filter usable)[i]? with _ | prim
  · rfl
  · obtain ⟨U, A⟩ := prim
    unfold pickUnitary pickQubits
    rcases U with u | pu
    · rfl
    · exact (PyM.bind_assoc' _ _ _).symm

theorem pickUnitary_ok {τ : Arith} {prim : Primitive} {r r' : Rng} {u : Unitary}
    (h : pickUnitary τ prim r = (.ok u, r')) :
    match prim.unitary with
    | .inl u0 => u = u0
    | .inr pu => ∃ values : List ℝ, values.length = pu.parameters.length ∧
        (∀ pv ∈ pu.parameters.zip values, pv.1.minValue ≤ pv.2 ∧ pv.2 ≤ pv.1.maxValue) ∧
        pu.asUnitary τ values = .ok u := by
  unfold pickUnitary at h
  rcases hu : prim.unitary with u0 | pu
  · rw [hu] at h
    simp only [PyM.pure_apply, Prod.mk.injEq, Except.ok.injEq] at h
    exact h.1.symm
  · rw [hu] at h
    simp only at h ⊢
    rw [PyM.bind_eq_ok_iff] at h
    obtain ⟨vs, r1, h1, h2⟩ := h
    rw [PyM.lift_eq_ok_iff] at h2
    have hlen := randomParameterValues_length h1
    refine ⟨vs, hlen, ?_, h2.1⟩
    have h3 := h2.1
    unfold ParamUnitary.asUnitary at h3
    rw [raiseUnless_bind_eq_ok, assertE_bind_eq_ok] at h3
    intro pv hpv
    exact h3.2.1 pv hpv

theorem map_ofNat_toNat {l : List ℤ} (h : ∀ a ∈ l, 0 ≤ a) : (l.map Int.toNat).map Int.ofNat = l := by
  rw [List.map_map]
  conv_rhs => rw [← List.map_id l]
  apply List.map_congr_left
  intro a ha
  simpa using h a ha

theorem entryNew_applyTo {u : Unitary} {qs : List ℤ} {v : EntryVal} (h : EntryVal.new u qs = .ok v) :
    v.applyTo.map Int.ofNat = qs := by
  unfold EntryVal.new at h
  simp only [assertE_bind_eq_ok, raiseUnless_bind_eq_ok, pure_except, Except.ok.injEq] at h
  obtain ⟨h1, h2, h3, h4, rfl⟩ := h
  exact map_ofNat_toNat h4

theorem map_ofNat_inj {a b : List ℕ} (h : a.map Int.ofNat = b.map Int.ofNat) : a = b :=
  List.map_injective_iff.mpr (fun _ _ hxy => Int.ofNat.inj hxy) h

theorem pickQubits_ok {m : ℕ} {prim : Primitive} {u : Unitary} {r r' : Rng} {v : EntryVal}
    (h : pickQubits m prim u r = (.ok v, r')) :
    v.WF ∧ v.unitary = u ∧
    match prim.allowedApplyTo with
    | some lists => v.applyTo.map Int.ofNat ∈ lists
    | none => v.applyTo.Nodup ∧ ∀ q ∈ v.applyTo, q < m := by
  unfold pickQubits at h
  rcases hl : prim.allowedApplyTo with _ | lists
  · rw [hl] at h
    simp only at h ⊢
    rw [PyM.bind_eq_ok_iff] at h
    obtain ⟨qs, r1, h1, h2⟩ := h
    rw [PyM.lift_eq_ok_iff] at h2
    obtain ⟨h3, h4⟩ := entryNew_ok h2.1
    refine ⟨h3, h4, h3.nodup, ?_⟩
    rw [map_ofNat_inj (entryNew_applyTo h2.1)]
    by_cases hk : intLog2 u.getDimension ≤ m
    · obtain ⟨l, r2, h5, -, -, h6⟩ := Rng.choiceNoReplace_ok hk r
      rw [h5] at h1; cases h1
      exact h6
    · rw [Rng.choiceNoReplace_error hk] at h1; cases h1
  · rw [hl] at h
    simp only at h ⊢
    rw [PyM.bind_eq_ok_iff] at h
    obtain ⟨k, r1, h1, h2⟩ := h
    rcases hk : lists[k]? with _ | qs
    · rw [hk] at h2; cases h2
    · rw [hk] at h2
      simp only at h2
      rw [PyM.lift_eq_ok_iff] at h2
      obtain ⟨h3, h4⟩ := entryNew_ok h2.1
      refine ⟨h3, h4, ?_⟩
      rw [entryNew_applyTo h2.1]
      exact List.mem_of_getElem? hk

/-- Every random gate is well formed and comes from one of the usable primitives. -/
theorem createRandomEntryVal_ok {τ : Arith} {D : ℕ} {prims : List Primitive} {probs : Option (List ℝ)}
    {r r' : Rng} {v : EntryVal} (h : createRandomEntryVal τ D prims probs r = (.ok v, r')) :
    v.WF ∧ ∃ p ∈ prims, usable p = true ∧ FromPrimitive τ (intLog2 D) p v := by
  rw [createRandomEntryVal_eq, PyM.bind_eq_ok_iff] at h
  obtain ⟨i, r1, -, h⟩ := h
  rcases hi : (prims.filter usable)[i]? with _ | p
  · rw [hi] at h; cases h
  · rw [hi] at h
    simp only at h
    rw [PyM.bind_eq_ok_iff] at h
    obtain ⟨u, r2, h1, h2⟩ := h
    obtain ⟨h3, h4, h5⟩ := pickQubits_ok h2
    obtain ⟨hp1, hp2⟩ := List.mem_filter.mp (List.mem_of_getElem? hi)
    refine ⟨h3, p, hp1, hp2, ?_, h5⟩
    have := pickUnitary_ok h1
    rw [h4]; exact this

/-! ## Valid primitives -/

theorem pickUnitary_valid {k : ℕ} {prim : Primitive}
    (h : match prim.unitary with
      | .inl u => u.Exact (2 ^ k)
      | .inr pu => pu.dimension = 2 ^ k ∧ (∀ q ∈ pu.parameters, q.minValue ≤ q.maxValue) ∧
          ∀ values : List ℝ, values.length = pu.parameters.length →
            (∀ pv ∈ pu.parameters.zip values, pv.1.minValue ≤ pv.2 ∧ pv.2 ≤ pv.1.maxValue) →
            ∃ a, pu.parameterizedMatrix values = .ok a ∧ a.rows = 2 ^ k ∧ a.cols = 2 ^ k ∧
              a.toMatrix (2 ^ k) ∈ Matrix.unitaryGroup (Fin (2 ^ k)) ℂ) (r : Rng) :
    ∃ u r', pickUnitary 0 prim r = (.ok u, r') ∧ u.Exact (2 ^ k) := by
  unfold pickUnitary
  rcases hu : prim.unitary with u | pu
  · rw [hu] at h
    exact ⟨u, r, rfl, h⟩
  · rw [hu] at h
    simp only at h ⊢
    obtain ⟨h1, h2, h3⟩ := h
    obtain ⟨vs, r', h4, h5, h6⟩ := randomParameterValues_ok pu.parameters h2 r
    obtain ⟨a, h7, h8, h9, h10⟩ := h3 vs h5 h6
    have hpos : 0 < 2 ^ k := by positivity
    obtain ⟨c, hc1, hc2, -, hc4⟩ := Unitary.new_exact hpos h8 h9 h10 (some pu.operationName)
      (some (buildDict (pu.parameters.zip vs) [])) false []
    rw [PyM.bind_of_ok h4]
    refine ⟨Unitary.mk (a.smul c) pu.operationName (buildDict (pu.parameters.zip vs) []) false [], r', ?_, ?_⟩
    · rw [PyM.lift_eq_ok_iff]
      refine ⟨?_, rfl⟩
      rw [asUnitary_eq h5 (fun pv hpv => h6 pv hpv), h7, ok_bind, h1, hc4]
      rfl
    · refine ⟨hpos, h8, h9, ?_⟩
      show (a.smul c).toMatrix _ ∈ _
      rw [Arr.toMatrix_smul, Matrix.mem_specialUnitaryGroup_iff, Matrix.det_smul, Fintype.card_fin]
      refine ⟨?_, hc2⟩
      rw [Matrix.mem_unitaryGroup_iff] at h10 ⊢
      rw [Matrix.star_eq_conjTranspose, Matrix.conjTranspose_smul, smul_mul_smul_comm,
        ← Matrix.star_eq_conjTranspose, h10]
      have : c * star c = 1 := by
        rw [Complex.star_def, Complex.mul_conj, Complex.normSq_eq_norm_sq, hc1]; simp
      rw [this, one_smul]

theorem pickQubits_valid {n k : ℕ} {prim : Primitive} {u : Unitary} (hk : 1 ≤ k) (hkn : k ≤ n)
    (hu : u.Exact (2 ^ k)) (hus : usable prim = true)
    (h : match prim.allowedApplyTo with
      | none => True
      | some lists => ∀ l ∈ lists, l.Nodup ∧ l.length = k ∧ ∀ q ∈ l, 0 ≤ q ∧ q < (n : ℤ)) (r : Rng) :
    ∃ v r', pickQubits n prim u r = (.ok v, r') ∧ v.Fits n ∧ v.Exact := by
  have mk : ∀ qs : List ℤ, qs.Nodup → qs.length = k → (∀ q ∈ qs, 0 ≤ q ∧ q < (n : ℤ)) →
      ∃ v, EntryVal.new u qs = .ok v ∧ v.Fits n ∧ v.Exact := by
    intro qs h1 h2 h3
    have hne : qs ≠ [] := by intro h; rw [h] at h2; simp at h2; omega
    have e : EntryVal.new u qs = .ok ⟨u, qs.map Int.toNat⟩ := by
      unfold EntryVal.new
      rw [assertE_of h1, ok_bind, assertE_of (by rw [h2, hu.dim]), ok_bind, raiseUnless_of hne, ok_bind,
        assertE_of (fun a ha => (h3 a ha).1), ok_bind]
      rfl
    refine ⟨_, e, ?_, entryNew_exact e hu⟩
    intro q hq
    obtain ⟨a, ha, rfl⟩ := List.mem_map.mp hq
    have := h3 a ha
    omega
  unfold pickQubits
  rcases hl : prim.allowedApplyTo with _ | lists
  · simp only
    rw [hu.dim, show intLog2 (2 ^ k) = k from log2_pow k]
    obtain ⟨l, r', h1, h2, h3, h4⟩ := Rng.choiceNoReplace_ok hkn r
    rw [PyM.bind_of_ok h1]
    obtain ⟨v, h5, h6⟩ := mk (l.map Int.ofNat) (h3.map fun a b hab => Int.ofNat.inj hab) (by simpa using h2)
      (by
        intro q hq
        obtain ⟨a, ha, rfl⟩ := List.mem_map.mp hq
        have := h4 a ha
        constructor
        · exact Int.natCast_nonneg a
        · exact Int.ofNat_lt.mpr this)
    exact ⟨v, r', by rw [PyM.lift_eq_ok_iff]; exact ⟨h5, rfl⟩, h6⟩
  · rw [hl] at h
    simp only at h ⊢
    have hlen : 0 < lists.length := by simpa [usable, hl] using hus
    obtain ⟨i, h1, h2⟩ := Rng.choice_ok hlen r
    rw [PyM.bind_of_ok h1, List.getElem?_eq_getElem h2]
    simp only
    obtain ⟨h3, h4, h5⟩ := h _ (List.getElem_mem h2)
    obtain ⟨v, h6, h7⟩ := mk _ h3 h4 h5
    exact ⟨v, _, by rw [PyM.lift_eq_ok_iff]; exact ⟨h6, rfl⟩, h7⟩

/-- The gate choice succeeds: there is a usable primitive and the probabilities, if given, fit the usable ones. -/
def ChoiceOk (prims : List Primitive) (probs : Option (List ℝ)) : Prop :=
  match probs with
  | none => 0 < (prims.filter usable).length
  | some p => Rng.ValidP (prims.filter usable).length p

theorem choiceOpt_ok {prims : List Primitive} {probs : Option (List ℝ)} (h : ChoiceOk prims probs) (r : Rng) :
    ∃ i r', Rng.choiceOpt (prims.filter usable).length probs r = (.ok i, r') ∧
      i < (prims.filter usable).length := by
  rcases probs with _ | p
  · obtain ⟨i, h1, h2⟩ := Rng.choice_ok h r
    exact ⟨i, _, h1, h2⟩
  · exact ⟨_, _, Rng.choiceP_eq h r, (Rng.search_spec h (r.unif r.upos) rfl).1⟩

theorem createRandomEntryVal_valid {n : ℕ} {prims : List Primitive} {probs : Option (List ℝ)}
    (hc : ChoiceOk prims probs) (hv : ∀ p ∈ prims, p.Valid n) (r : Rng) :
    ∃ v r', createRandomEntryVal 0 (2 ^ n) prims probs r = (.ok v, r') ∧ v.Fits n ∧ v.Exact := by
  rw [createRandomEntryVal_eq]
  obtain ⟨i, r1, h1, h2⟩ := choiceOpt_ok hc r
  rw [PyM.bind_of_ok h1, List.getElem?_eq_getElem h2]
  simp only
  obtain ⟨hp1, hp2⟩ := List.mem_filter.mp (List.getElem_mem h2)
  obtain ⟨k, hk1, hk2, hk3, hk4⟩ := hv _ hp1
  obtain ⟨u, r2, h3, h4⟩ := pickUnitary_valid hk3 r1
  rw [PyM.bind_of_ok h3, show intLog2 (2 ^ n) = n from log2_pow n]
  exact pickQubits_valid hk1 hk2 h4 hp2 hk4 r2

/-- Without assuming the choice succeeds: gates that are produced are good. -/
theorem createRandomEntryVal_good {n : ℕ} {prims : List Primitive} {probs : Option (List ℝ)}
    (hv : ∀ p ∈ prims, p.Valid n) {r r' : Rng} {v : EntryVal}
    (h : createRandomEntryVal 0 (2 ^ n) prims probs r = (.ok v, r')) : v.Fits n ∧ v.Exact := by
  rw [createRandomEntryVal_eq, PyM.bind_eq_ok_iff] at h
  obtain ⟨i, r1, -, h⟩ := h
  rcases hi : (prims.filter usable)[i]? with _ | p
  · rw [hi] at h; cases h
  · rw [hi] at h
    simp only at h
    obtain ⟨hp1, hp2⟩ := List.mem_filter.mp (List.mem_of_getElem? hi)
    obtain ⟨k, hk1, hk2, hk3, hk4⟩ := hv _ hp1
    obtain ⟨u, r2, h3, h4⟩ := pickUnitary_valid hk3 r1
    rw [PyM.bind_of_ok h3, show intLog2 (2 ^ n) = n from log2_pow n] at h
    obtain ⟨v', r3, h5, h6⟩ := pickQubits_valid hk1 hk2 h4 hp2 hk4 r2
    rw [h5] at h; cases h
    exact h6

end Stoq
