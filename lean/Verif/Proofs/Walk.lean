import Verif.Proofs.CompileLoop
import Mathlib.Data.Set.Function

/-! # Invariants of the annealing walk -/

namespace Stoq

open World Compiler

namespace Metropolis

variable {rate cap : ℝ} {prop : List EntryVal → PyM Rng (List EntryVal)}

theorem Walk.inv {P : List EntryVal → Prop} (hP : ∀ g r new r', P g → prop g r = (.ok new, r') → P new)
    {g : List EntryVal} {b : ℝ} {r : Rng} {k : ℕ} {g' : List EntryVal} {b' : ℝ} {r' : Rng}
    (h : Walk rate cap prop g b r k g' b' r') (hg : P g) : P g' := by
  induction h with
  | refl => exact hg
  | step h1 h2 _ ih =>
    refine ih ?_
    rcases h2 with rfl | rfl
    · exact hg
    · exact hP _ _ _ _ hg h1

/-- A property that may grow with the number of steps. -/
theorem Walk.grow {P : ℕ → List EntryVal → Prop} (hmono : ∀ j g, P j g → P (j + 1) g)
    (hP : ∀ j g r new r', P j g → prop g r = (.ok new, r') → P (j + 1) new)
    {g : List EntryVal} {b : ℝ} {r : Rng} {k : ℕ} {g' : List EntryVal} {b' : ℝ} {r' : Rng}
    (h : Walk rate cap prop g b r k g' b' r') {j : ℕ} (hg : P j g) : P (j + k) g' := by
  induction h generalizing j with
  | refl => exact hg
  | step h1 h2 _ ih =>
    rw [Nat.add_comm _ 1, ← Nat.add_assoc]
    refine ih ?_
    rcases h2 with rfl | rfl
    · exact hmono _ _ hg
    · exact hP _ _ _ _ _ hg h1

theorem Walk.length {c : ℕ} (hP : ∀ g r new r', prop g r = (.ok new, r') → new.length ≤ g.length + c)
    {g : List EntryVal} {b : ℝ} {r : Rng} {k : ℕ} {g' : List EntryVal} {b' : ℝ} {r' : Rng}
    (h : Walk rate cap prop g b r k g' b' r') : g'.length ≤ g.length + k * c := by
  induction h with
  | refl => simp
  | step h1 h2 _ ih =>
    refine ih.trans ?_
    rcases h2 with rfl | rfl
    · nlinarith
    · have := hP _ _ _ _ h1
      nlinarith

theorem Walk.beta {g : List EntryVal} {b : ℝ} {r : Rng} {k : ℕ} {g' : List EntryVal} {b' : ℝ} {r' : Rng}
    (h : Walk rate cap prop g b r k g' b' r') : b' = (heat rate cap)^[k] b := by
  induction h with
  | refl => rfl
  | step _ _ _ ih => rw [ih, Function.iterate_succ_apply]; rfl

theorem heat_iterate (hr : 0 ≤ rate) {b : ℝ} (hb : b ≤ cap) (k : ℕ) :
    (heat rate cap)^[k] b = min (b + k * rate) cap := by
  induction k with
  | zero => simp [hb]
  | succ k ih =>
    rw [Function.iterate_succ_apply', ih, heat]
    push_cast
    rcases le_total (b + k * rate) cap with h | h
    · rw [min_eq_left h]; congr 1; ring
    · rw [min_eq_right h, min_eq_right (by linarith), min_eq_right (by nlinarith)]

theorem heat_iterate_le (k : ℕ) {b : ℝ} (h : b ≤ cap) : (heat rate cap)^[k] b ≤ cap := by
  cases k with
  | zero => exact h
  | succ k => rw [Function.iterate_succ_apply']; exact min_le_right _ _

/-! ## The trace -/

variable {n : ℕ} {T : Matrix (Fin (2 ^ n)) (Fin (2 ^ n)) ℂ} {threshold : Option ℝ}

theorem step_cases {st st' : State} {r r' : Rng} (h : step n T rate cap prop st r = (.ok st', r')) :
    ∃ new r1, prop st.gates r = (.ok new, r1) ∧ r' = { r1 with upos := r1.upos + 1 } ∧
      st'.beta = min (st.beta + rate) cap ∧ (st'.gates = st.gates ∨ st'.gates = new) := by
  unfold step at h
  rw [PyM.bind_eq_ok_iff] at h
  obtain ⟨new, r1, h1, h⟩ := h
  refine ⟨new, r1, h1, ?_⟩
  rw [PyM.bind_of_ok (Rng.randomSample_eq r1)] at h
  split_ifs at h
  · cases h; exact ⟨rfl, rfl, .inr rfl⟩
  · cases h; exact ⟨rfl, rfl, .inl rfl⟩

theorem step_ok {st : State} {r r1 : Rng} {new : List EntryVal} (h : prop st.gates r = (.ok new, r1)) :
    ∃ st', step n T rate cap prop st r = (.ok st', { r1 with upos := r1.upos + 1 }) := by
  unfold step
  rw [PyM.bind_of_ok h, PyM.bind_of_ok (Rng.randomSample_eq r1)]
  split_ifs
  · exact ⟨_, rfl⟩
  · exact ⟨_, rfl⟩

theorem run_succ_ok {k : ℕ} {st : State} {r r' : Rng} {tr : List State}
    (h : run n T threshold rate cap prop (k + 1) st r = (.ok tr, r')) :
    (GoodEnough threshold (cost n T st.gates) ∧ tr = [] ∧ r' = r) ∨
    ∃ st' r1 rest, ¬ GoodEnough threshold (cost n T st.gates) ∧ step n T rate cap prop st r = (.ok st', r1) ∧
      run n T threshold rate cap prop k st' r1 = (.ok rest, r') ∧ tr = st' :: rest := by
  rw [run] at h
  split_ifs at h with hg
  · left; cases h; exact ⟨hg, rfl, rfl⟩
  · right
    rw [PyM.bind_eq_ok_iff] at h
    obtain ⟨st', r1, h1, h⟩ := h
    rw [PyM.bind_eq_ok_iff] at h
    obtain ⟨rest, r2, h2, h⟩ := h
    cases h
    exact ⟨st', r1, rest, hg, h1, h2, rfl⟩

theorem run_inv {P : List EntryVal → Prop} (hP : ∀ g r new r', P g → prop g r = (.ok new, r') → P new)
    {k : ℕ} {st : State} {r r' : Rng} {tr : List State} (h : run n T threshold rate cap prop k st r = (.ok tr, r'))
    (hg : P st.gates) : ∀ s ∈ tr, P s.gates := by
  induction k generalizing st r tr with
  | zero => cases h; simp
  | succ k ih =>
    rcases run_succ_ok h with ⟨-, rfl, -⟩ | ⟨st', r1, rest, -, h1, h2, rfl⟩
    · simp
    · have hst : P st'.gates := by
        obtain ⟨new, r2, h3, -, -, h4⟩ := step_cases h1
        rcases h4 with h4 | h4
        · rw [h4]; exact hg
        · rw [h4]; exact hP _ _ _ _ hg h3
      intro s hs
      rcases List.mem_cons.mp hs with rfl | hs
      · exact hst
      · exact ih h2 hst s hs

theorem run_ok {P : List EntryVal → Prop} (hP : ∀ g r, P g → ∃ new r', prop g r = (.ok new, r') ∧ P new)
    {k : ℕ} {st : State} (r : Rng) (hg : P st.gates) :
    ∃ tr r', run n T threshold rate cap prop k st r = (.ok tr, r') := by
  induction k generalizing st r with
  | zero => exact ⟨[], r, rfl⟩
  | succ k ih =>
    rw [run]
    split_ifs with hgood
    · exact ⟨[], r, rfl⟩
    · obtain ⟨new, r1, h1, h2⟩ := hP st.gates r hg
      obtain ⟨st', h3⟩ := step_ok (n := n) (T := T) (rate := rate) (cap := cap) h1
      have hst : P st'.gates := by
        obtain ⟨new', r2, h4, -, -, h5⟩ := step_cases h3
        rw [h1] at h4; cases h4
        rcases h5 with h5 | h5
        · rw [h5]; exact hg
        · rw [h5]; exact h2
      obtain ⟨tr, r', h6⟩ := ih { r1 with upos := r1.upos + 1 } hst
      exact ⟨st' :: tr, r', by rw [PyM.bind_of_ok h3, PyM.bind_of_ok h6]; rfl⟩

theorem run_take {k m : ℕ} (hkm : k ≤ m) {st : State} {r r' : Rng} {tr : List State}
    (h : run n T threshold rate cap prop m st r = (.ok tr, r')) :
    ∃ r'', run n T threshold rate cap prop k st r = (.ok (tr.take k), r'') := by
  induction k generalizing m st r tr with
  | zero => exact ⟨r, by simp [run]⟩
  | succ k ih =>
    obtain ⟨m, rfl⟩ : ∃ j, m = j + 1 := ⟨m - 1, by omega⟩
    rw [run]
    rcases run_succ_ok h with ⟨hg, rfl, -⟩ | ⟨st', r1, rest, hg, h1, h2, rfl⟩
    · rw [if_pos hg]; exact ⟨r, by simp⟩
    · rw [if_neg hg]
      obtain ⟨r'', h3⟩ := ih (by omega) h2
      exact ⟨r'', by rw [PyM.bind_of_ok h1, PyM.bind_of_ok h3]; rfl⟩

/-- A relation that holds along every proposal holds along the trace. -/
theorem run_chain {Q : List EntryVal → List EntryVal → Prop} (hrefl : ∀ g, Q g g)
    (hQ : ∀ g r new r', prop g r = (.ok new, r') → Q g new) {k : ℕ} {st : State} {r r' : Rng} {tr : List State}
    (h : run n T threshold rate cap prop k st r = (.ok tr, r')) :
    List.IsChain (fun s s' => Q s.gates s'.gates) (st :: tr) := by
  induction k generalizing st r tr with
  | zero => cases h; simp
  | succ k ih =>
    rcases run_succ_ok h with ⟨-, rfl, -⟩ | ⟨st', r1, rest, -, h1, h2, rfl⟩
    · simp
    · refine List.isChain_cons_cons.mpr ⟨?_, ih h2⟩
      obtain ⟨new, r2, h3, -, -, h4⟩ := step_cases h1
      rcases h4 with h4 | h4
      · rw [h4]; exact hrefl _
      · rw [h4]; exact hQ _ _ _ _ h3

theorem run_length {k : ℕ} {st : State} {r r' : Rng} {tr : List State}
    (h : run n T threshold rate cap prop k st r = (.ok tr, r')) : tr.length ≤ k := by
  induction k generalizing st r tr with
  | zero => cases h; simp
  | succ k ih =>
    rcases run_succ_ok h with ⟨-, rfl, -⟩ | ⟨st', r1, rest, -, h1, h2, rfl⟩
    · simp
    · simpa using ih h2

/-! ## Proposals -/

theorem propose_cases {p : ℝ} {fresh : PyM Rng (List EntryVal)} {L : ℕ} {g new : List EntryVal} {r r' : Rng}
    (h : propose p fresh L g r = (.ok new, r')) :
    (0 ≤ p ∧ p ≤ 1) ∧
    (((r.unif r.upos : ℝ) < p ∧ ∃ vs, fresh { r with upos := r.upos + 1 } = (.ok vs, r') ∧
        (new = vs.reverse ++ g ∨ new = g ++ vs)) ∨
      (p ≤ (r.unif r.upos : ℝ) ∧ r' = { r with upos := r.upos + 1 } ∧
        (new = g.drop L ∨ new = g.take (g.length - L)))) := by
  unfold propose at h
  by_cases hp : 0 ≤ p ∧ p ≤ 1
  swap
  · rw [raiseUnless_of_not hp] at h; cases h
  refine ⟨hp, ?_⟩
  rw [raiseUnless_of hp] at h
  have e : (PyM.lift (Except.ok ()) : PyM Rng Unit) r = (.ok (), r) := rfl
  rw [PyM.bind_of_ok e, PyM.bind_of_ok (Rng.randomSample_eq r)] at h
  generalize hu : ((r.unif r.upos : Set.Ico (0 : ℝ) 1) : ℝ) = u at h ⊢
  split_ifs at h with h1 h2 h3
  · rw [PyM.bind_eq_ok_iff] at h
    obtain ⟨vs, r1, h4, h5⟩ := h
    cases h5
    exact .inl ⟨by linarith [hp.1], vs, h4, .inl rfl⟩
  · rw [PyM.bind_eq_ok_iff] at h
    obtain ⟨vs, r1, h4, h5⟩ := h
    cases h5
    exact .inl ⟨h2, vs, h4, .inr rfl⟩
  · cases h
    exact .inr ⟨not_lt.mp h2, rfl, .inl rfl⟩
  · cases h
    exact .inr ⟨not_lt.mp h2, rfl, .inr rfl⟩

theorem propose_ok {p : ℝ} (hp : 0 ≤ p ∧ p ≤ 1) {fresh : PyM Rng (List EntryVal)}
    (hf : ∀ r, ∃ vs r', fresh r = (.ok vs, r')) (L : ℕ) (g : List EntryVal) (r : Rng) :
    ∃ new r', propose p fresh L g r = (.ok new, r') := by
  unfold propose
  rw [raiseUnless_of hp]
  have e : (PyM.lift (Except.ok ()) : PyM Rng Unit) r = (.ok (), r) := rfl
  rw [PyM.bind_of_ok e, PyM.bind_of_ok (Rng.randomSample_eq r)]
  obtain ⟨vs, r', h⟩ := hf { r with upos := r.upos + 1 }
  split_ifs with h1 h2 h3
  · exact ⟨_, r', by rw [PyM.bind_of_ok h]; rfl⟩
  · exact ⟨_, r', by rw [PyM.bind_of_ok h]; rfl⟩
  · exact ⟨_, _, rfl⟩
  · exact ⟨_, _, rfl⟩

theorem propose_forall {p : ℝ} {fresh : PyM Rng (List EntryVal)} {L : ℕ} {G : EntryVal → Prop}
    (hf : ∀ r vs r', fresh r = (.ok vs, r') → ∀ v ∈ vs, G v) {g new : List EntryVal} {r r' : Rng}
    (hg : ∀ v ∈ g, G v) (h : propose p fresh L g r = (.ok new, r')) : ∀ v ∈ new, G v := by
  rcases (propose_cases h).2 with ⟨-, vs, h1, rfl | rfl⟩ | ⟨-, -, rfl | rfl⟩
  · intro v hv
    rcases List.mem_append.mp hv with hv | hv
    · exact hf _ _ _ h1 v (List.mem_reverse.mp hv)
    · exact hg v hv
  · intro v hv
    rcases List.mem_append.mp hv with hv | hv
    · exact hg v hv
    · exact hf _ _ _ h1 v hv
  · exact fun v hv => hg v (List.mem_of_mem_drop hv)
  · exact fun v hv => hg v (List.mem_of_mem_take hv)

theorem one_ok_iff {gen : PyM Rng EntryVal} {r r' : Rng} {vs : List EntryVal} :
    one gen r = (.ok vs, r') ↔ ∃ v, gen r = (.ok v, r') ∧ vs = [v] := by
  unfold one
  rw [PyM.bind_eq_ok_iff]
  constructor
  · rintro ⟨v, r1, h1, h2⟩; cases h2; exact ⟨v, h1, rfl⟩
  · rintro ⟨v, h1, rfl⟩; exact ⟨v, r', h1, rfl⟩

theorem many_ok {gen : PyM Rng EntryVal} {k : ℕ} {r r' : Rng} {vs : List EntryVal}
    (h : many gen k r = (.ok vs, r')) : vs.length = k ∧ ∀ v ∈ vs, ∃ r1 r2, gen r1 = (.ok v, r2) := by
  induction k generalizing r vs with
  | zero => cases h; simp
  | succ k ih =>
    rw [many, PyM.bind_eq_ok_iff] at h
    obtain ⟨v, r1, h1, h⟩ := h
    rw [PyM.bind_eq_ok_iff] at h
    obtain ⟨vs', r2, h2, h⟩ := h
    cases h
    obtain ⟨h3, h4⟩ := ih h2
    refine ⟨by simp [h3], ?_⟩
    intro x hx
    rcases List.mem_cons.mp hx with rfl | hx
    · exact ⟨_, _, h1⟩
    · exact h4 x hx

theorem block_ok {gen : Primitive → PyM Rng EntryVal} {counts : List (Primitive × ℤ)} {r r' : Rng}
    {vs : List EntryVal} (h : block gen counts r = (.ok vs, r')) :
    ∃ groups : List (List EntryVal), vs = groups.flatten ∧
      List.Forall₂ (fun pc g => g.length = pc.2.toNat ∧ ∀ v ∈ g, ∃ r1 r2, gen pc.1 r1 = (.ok v, r2))
        counts groups := by
  induction counts generalizing r vs with
  | nil => cases h; exact ⟨[], rfl, .nil⟩
  | cons pc rest ih =>
    obtain ⟨p, count⟩ := pc
    rw [block, PyM.bind_eq_ok_iff] at h
    obtain ⟨g, r1, h1, h⟩ := h
    rw [PyM.bind_eq_ok_iff] at h
    obtain ⟨more, r2, h2, h⟩ := h
    cases h
    obtain ⟨groups, rfl, h3⟩ := ih h2
    exact ⟨g :: groups, rfl, .cons (many_ok h1) h3⟩

theorem layer_ok {gen : Primitive → PyM Rng EntryVal} {counts : List (Primitive × ℤ)} {r r' : Rng}
    {vs : List EntryVal} (h : layer gen counts r = (.ok vs, r')) :
    ∃ groups : List (List EntryVal), vs.Perm groups.flatten ∧
      List.Forall₂ (fun pc g => g.length = pc.2.toNat ∧ ∀ v ∈ g, ∃ r1 r2, gen pc.1 r1 = (.ok v, r2))
        counts groups := by
  unfold layer at h
  rw [PyM.bind_eq_ok_iff] at h
  obtain ⟨us, r1, h1, h2⟩ := h
  obtain ⟨groups, rfl, h3⟩ := block_ok h1
  obtain ⟨l', r2, h4, h5⟩ := Rng.shuffle_perm groups.flatten r1
  rw [h2] at h4; cases h4
  exact ⟨groups, h5, h3⟩

theorem many_valid {gen : PyM Rng EntryVal} (hg : ∀ r, ∃ v r', gen r = (.ok v, r')) (k : ℕ) (r : Rng) :
    ∃ vs r', many gen k r = (.ok vs, r') := by
  induction k generalizing r with
  | zero => exact ⟨[], r, rfl⟩
  | succ k ih =>
    obtain ⟨v, r1, h1⟩ := hg r
    obtain ⟨vs, r2, h2⟩ := ih r1
    exact ⟨v :: vs, r2, by rw [many, PyM.bind_of_ok h1, PyM.bind_of_ok h2]; rfl⟩

theorem block_valid {gen : Primitive → PyM Rng EntryVal} {counts : List (Primitive × ℤ)}
    (hg : ∀ pc ∈ counts, 0 < pc.2 → ∀ r, ∃ v r', gen pc.1 r = (.ok v, r')) (r : Rng) :
    ∃ vs r', block gen counts r = (.ok vs, r') := by
  induction counts generalizing r with
  | nil => exact ⟨[], r, rfl⟩
  | cons pc rest ih =>
    obtain ⟨p, count⟩ := pc
    have h1 : ∃ vs r1, many (gen p) count.toNat r = (.ok vs, r1) := by
      by_cases hc : 0 < count
      · exact many_valid (hg (p, count) (by simp) hc) _ r
      · rw [show count.toNat = 0 by omega]; exact ⟨[], r, rfl⟩
    obtain ⟨vs, r1, h1⟩ := h1
    obtain ⟨more, r2, h2⟩ := ih (fun pc hpc => hg pc (by simp [hpc])) r1
    exact ⟨vs ++ more, r2, by rw [block, PyM.bind_of_ok h1, PyM.bind_of_ok h2]; rfl⟩

end Metropolis

end Stoq

namespace Stoq

open World Compiler

/-! ## `compile` and `compile_layered` make these proposals -/

/-- The gates `create_random_sequence_entry` can return. -/
def Generated (τ : Arith) (D : ℕ) (prims : List Primitive) (probs : Option (List ℝ)) (v : EntryVal) : Prop :=
  ∃ r r', createRandomEntryVal τ D prims probs r = (.ok v, r')

/-- The gates a layer can contain. -/
def GeneratedLayer (τ : Arith) (D : ℕ) (counts : List (Primitive × ℤ)) (v : EntryVal) : Prop :=
  ∃ pc ∈ counts, Generated τ D [pc.1] none v

theorem makeRandomChange_refines (τ : Arith) (C : Compiler) :
    Refines τ (Generated τ C.dimension C.primitives C.probabilities) (makeRandomChange τ C) (C.proposal τ) := by
  intro w s o hw hs ha
  rw [makeRandomChange_eq]
  exact changeWith_wp (mk_one fun r v r' h => ⟨r, r', h⟩) 1 hw hs ha

theorem makeRandomChangeLayered_refines (τ : Arith) (C : Compiler) (counts : List (Primitive × ℤ)) :
    Refines τ (GeneratedLayer τ C.dimension counts) (makeRandomChangeLayered τ C counts)
      (C.layeredProposal τ counts) := by
  intro w s o hw hs ha
  rw [makeRandomChangeLayered_eq]
  exact changeWith_wp (mk_layer fun pc hpc r v r' h => ⟨pc, hpc, r, r', h⟩) _ hw hs ha

theorem compile_eq {τ : Arith} {C : Compiler} (h : C.Truthy) (target : Unitary) (threshold : Option ℝ) (m : ℤ)
    (w : World) : compile τ C target threshold m w =
      compileWith τ C (makeRandomChange τ C) target threshold m w := by
  unfold compile
  rw [raiseUnless_of h.2]
  have e : (PyM.lift (Except.ok ()) : PyM World Unit) w = (.ok (), w) := rfl
  rw [PyM.bind_of_ok e, PyM.bind_of_ok (PyM.assert_of h.1 w)]

theorem compile_falsy {τ : Arith} {C : Compiler} (hn : ¬ C.Truthy) {target : Unitary} {threshold : Option ℝ} {m : ℤ}
    (w : World) : compile τ C target threshold m w = (.error .valueError, w) ∨
      compile τ C target threshold m w = (.error .assertion, w) := by
  unfold compile
  by_cases h1 : ¬ (C.primitivesIsArray = true ∧ C.primitives.length > 1)
  · have h2 : ¬ C.primitives ≠ [] := fun h2 => hn ⟨h2, h1⟩
    rw [raiseUnless_of h1]
    have e : (PyM.lift (Except.ok ()) : PyM World Unit) w = (.ok (), w) := rfl
    rw [PyM.bind_of_ok e, PyM.bind_of_error (PyM.assert_of_not h2 w)]
    exact .inr rfl
  · rw [raiseUnless_of_not h1]
    exact .inl rfl

theorem compile_truthy {τ : Arith} {C : Compiler} {target : Unitary} {threshold : Option ℝ} {m : ℤ} {w w' : World}
    {R : CompilerResult} (h : compile τ C target threshold m w = (.ok R, w')) : C.Truthy := by
  by_contra hn
  rcases compile_falsy (τ := τ) (target := target) (threshold := threshold) (m := m) hn w with h' | h' <;>
  · rw [h] at h'; cases h'

theorem compile_post {τ : Arith} {C : Compiler} {target : Unitary} {threshold : Option ℝ} {m : ℤ} {w : World}
    {b : ℝ} (hC : C.Truthy) (hw : w.WF τ) (hb : w.annealing C = some b) :
    CompilePost τ (Generated τ C.dimension C.primitives C.probabilities) (C.proposal τ) C target threshold m w b
      (compile τ C target threshold m w).1 (compile τ C target threshold m w).2 := by
  rw [compile_eq hC]
  exact compileWith_wp (makeRandomChange_refines τ C) threshold m hw hb

theorem compileLayered_post {τ : Arith} {C : Compiler} {target : Unitary} {counts : List (Primitive × ℤ)}
    {threshold : Option ℝ} {m : ℤ} {w : World} {b : ℝ} (hw : w.WF τ) (hb : w.annealing C = some b) :
    CompilePost τ (GeneratedLayer τ C.dimension counts) (C.layeredProposal τ counts) C target threshold m w b
      (compileLayered τ C target counts threshold m w).1 (compileLayered τ C target counts threshold m w).2 :=
  compileWith_wp (makeRandomChangeLayered_refines τ C counts) threshold m hw hb

theorem generated_from {τ : Arith} {D : ℕ} {prims : List Primitive} {probs : Option (List ℝ)} {v : EntryVal}
    (h : Generated τ D prims probs v) : v.WF ∧ ∃ p ∈ prims, usable p = true ∧ FromPrimitive τ (intLog2 D) p v := by
  obtain ⟨r, r', h⟩ := h
  exact createRandomEntryVal_ok h

theorem generated_good {n : ℕ} {prims : List Primitive} {probs : Option (List ℝ)} (hv : ∀ p ∈ prims, p.Valid n)
    {v : EntryVal} (h : Generated 0 (2 ^ n) prims probs v) : v.Fits n ∧ v.Exact := by
  obtain ⟨r, r', h⟩ := h
  exact createRandomEntryVal_good hv h

theorem generatedLayer_good {n : ℕ} {counts : List (Primitive × ℤ)} (hv : ∀ pc ∈ counts, pc.1.Valid n)
    {v : EntryVal} (h : GeneratedLayer 0 (2 ^ n) counts v) : v.Fits n ∧ v.Exact := by
  obtain ⟨pc, hpc, h⟩ := h
  exact generated_good (by simpa using hv pc hpc) h

theorem proposal_forall {τ : Arith} {C : Compiler} {g new : List EntryVal} {r r' : Rng}
    (hg : ∀ v ∈ g, Generated τ C.dimension C.primitives C.probabilities v)
    (h : C.proposal τ g r = (.ok new, r')) :
    ∀ v ∈ new, Generated τ C.dimension C.primitives C.probabilities v := by
  refine Metropolis.propose_forall (fun r vs r' hf v hv => ?_) hg h
  obtain ⟨x, h1, rfl⟩ := Metropolis.one_ok_iff.mp hf
  obtain rfl := List.mem_singleton.mp hv
  exact ⟨r, r', h1⟩

theorem proposal_length {τ : Arith} {C : Compiler} {g new : List EntryVal} {r r' : Rng}
    (h : C.proposal τ g r = (.ok new, r')) : new.length ≤ g.length + 1 := by
  rcases (Metropolis.propose_cases h).2 with ⟨-, vs, h1, h2⟩ | ⟨-, -, rfl | rfl⟩
  · obtain ⟨v, -, rfl⟩ := Metropolis.one_ok_iff.mp h1
    rcases h2 with rfl | rfl <;> simp
  · simp; omega
  · simp; omega

theorem layer_forall {τ : Arith} {D : ℕ} {counts : List (Primitive × ℤ)} {r r' : Rng} {vs : List EntryVal}
    (h : Metropolis.layer (fun p => createRandomEntryVal τ D [p] none) counts r = (.ok vs, r')) :
    ∀ v ∈ vs, GeneratedLayer τ D counts v := by
  obtain ⟨groups, h1, h2⟩ := Metropolis.layer_ok h
  intro v hv
  have hv' := h1.mem_iff.mp hv
  obtain ⟨g, hg, hvg⟩ := List.mem_flatten.mp hv'
  clear h h1 hv hv'
  induction h2 with
  | nil => simp at hg
  | @cons pc g' rest gs h3 _ ih =>
    rcases List.mem_cons.mp hg with rfl | hg
    · exact ⟨pc, by simp, h3.2 v hvg⟩
    · obtain ⟨pc', h4, h5⟩ := ih hg
      exact ⟨pc', by simp [h4], h5⟩

theorem layeredProposal_forall {τ : Arith} {C : Compiler} {counts : List (Primitive × ℤ)} {g new : List EntryVal}
    {r r' : Rng} (hg : ∀ v ∈ g, GeneratedLayer τ C.dimension counts v)
    (h : C.layeredProposal τ counts g r = (.ok new, r')) :
    ∀ v ∈ new, GeneratedLayer τ C.dimension counts v :=
  Metropolis.propose_forall (fun _ _ _ hf => layer_forall hf) hg h

/-! ## Making a compiler -/

theorem new_compiler_eq {D : ℕ} {prims : List Primitive} {arr : Bool} {probs : Option (List ℝ)} {p rate : ℝ}
    {w w' : World} {C : Compiler} (h : Compiler.new D prims arr probs p rate w = (.ok C, w')) :
    0 < D ∧ (∀ q ∈ prims, q.getDimension ≤ D) ∧ C = ⟨D, prims, arr, probs, ((2 : ℝ) ^ D) ^ 2, rate, p, w.betas.length⟩ ∧
      w' = { w with betas := w.betas ++ [0] } := by
  unfold Compiler.new at h
  by_cases h1 : D > 0
  · rw [PyM.bind_of_ok (PyM.assert_of h1 w)] at h
    by_cases h2 : ∀ q ∈ prims, q.getDimension ≤ D
    · rw [PyM.bind_of_ok (PyM.assert_of h2 w)] at h
      cases h
      exact ⟨h1, h2, rfl, rfl⟩
    · rw [PyM.bind_of_error (PyM.assert_of_not h2 w)] at h; cases h
  · rw [PyM.bind_of_error (PyM.assert_of_not h1 w)] at h; cases h

theorem new_compiler_ok {D : ℕ} {prims : List Primitive} (arr : Bool) (probs : Option (List ℝ)) (p rate : ℝ)
    (h1 : 0 < D) (h2 : ∀ q ∈ prims, q.getDimension ≤ D) (w : World) :
    Compiler.new D prims arr probs p rate w =
      (.ok ⟨D, prims, arr, probs, ((2 : ℝ) ^ D) ^ 2, rate, p, w.betas.length⟩,
        { w with betas := w.betas ++ [0] }) := by
  unfold Compiler.new
  rw [PyM.bind_of_ok (PyM.assert_of h1 w), PyM.bind_of_ok (PyM.assert_of h2 w)]
  rfl

end Stoq
