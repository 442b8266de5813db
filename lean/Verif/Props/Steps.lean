import Verif.Proofs.Example
import Verif.Proofs.Steps

/-! # C95: the expected number of steps of a search is finite -/

namespace Stoq

open Matrix MeasureTheory Compiler UnitaryDefinitions

/-- C95: under the conditions of C77 the probability that `compile` makes more than `j` steps decreases exponentially with
`j`, and the expected number of steps is at most `K / δ`, whatever the limit `m`.  (A call that raises an exception would
count as infinitely many steps.) -/
theorem C95_compile_steps {n : ℕ} {prims : List Primitive} {probs : Option (List ℝ)} {p : ℝ}
    (hprims : ∀ q ∈ prims, q.Valid n) (hcont : ∀ q ∈ prims, q.Continuous) (hch : ChoiceOk prims probs)
    (hp : 0 < p ∧ p ≤ 1) {target : Unitary} (ht : target.Exact (2 ^ n)) {threshold : Option ℝ} {w : List EntryVal}
    (hw : ∀ v ∈ w, CanDraw n prims probs v)
    (hgood : 1 - overlap (target.matrix.toMatrix (2 ^ n)) (circuit n w) < Metropolis.allowed threshold) {B : ℕ}
    (hB : n ≤ B) (hB1 : prims.length ≤ B)
    (hB2 : ∀ q ∈ prims, ∀ lists, q.allowedApplyTo = some lists → lists.length ≤ B) :
    ∃ (δ : ℝ) (K : ℕ), 0 < δ ∧ δ ≤ 1 ∧ 0 < K ∧ ∀ {c : Client} {Cs : List Compiler}, Session 0 c Cs →
      (∀ x ∈ c.world.entries, x.toVal.Exact) → ∀ {C : Compiler}, C ∈ Cs → C.dimension = 2 ^ n → C.primitives = prims →
      C.probabilities = probs → C.appendProbability = p → 0 ≤ C.annealingRate → C.Truthy → ∀ m : ℕ,
        Measurable (fun t => stepCount (C.compile 0 target threshold m (c.world.reseed t))) ∧
        (∀ j : ℕ, Rng.tapes B {t | (j : ENNReal) < stepCount (C.compile 0 target threshold m (c.world.reseed t))} ≤
          ENNReal.ofReal ((1 - δ) ^ (j / K))) ∧
        ∫⁻ t, stepCount (C.compile 0 target threshold m (c.world.reseed t)) ∂Rng.tapes B ≤ ENNReal.ofReal (K / δ) := by
  obtain ⟨δ, K, h1, h2, h3, h4⟩ := Metropolis.wins_exponential (cap := ((2 : ℝ) ^ 2 ^ n) ^ 2) ht.unitary
    (Metropolis.one_source hch hprims hcont hB hB1 hB2) (by positivity) hp.1 hp.2 (w := w)
    ⟨w.map fun v => [v], (flatten_singletons w).symm, fun l hl => by
      obtain ⟨v, hv, rfl⟩ := List.mem_map.mp hl
      exact ((C77_can_draw hch (hw v hv)).bind (k := fun v => Pure.pure [v]) (Rng.Possible.pure [v])).result⟩ hgood
  refine ⟨δ, K, h1, h2, h3, ?_⟩
  intro c Cs hs hex C hC hD hCp hCr hCa hrate hTr m
  obtain ⟨b, hb, -, hb0⟩ := hs.ok.2.alive C hC
  subst hCp hCr hCa
  refine steps_of_wins (m := m) (M := C.compile 0 target threshold m) (prop := C.proposal 0) (b := b) (fun t => ?_)
    (C88_compile hs hex hC hD hprims hcont hTr ht threshold m) h1 h2 h3 fun j => by
      unfold Compiler.proposal; rw [hD]; exact h4 C.annealingRate hrate j ⟨[], b⟩ ⟨.nil, hb0 hrate⟩
  exact follows_of_post hD (hs.ok.2.dim C hC).2 hex (fun v hv => generated_good hprims (by rw [← hD]; exact hv)) ht
    (compile_post hTr (hs.ok.1.wf.reseed t) hb)

/-- C95: with a universal set of gates the expected number of steps has a bound that is the same for all targets. -/
theorem C95_compile_steps_all {n : ℕ} {prims : List Primitive} {probs : Option (List ℝ)} {p : ℝ}
    (hprims : ∀ q ∈ prims, q.Valid n) (hcont : ∀ q ∈ prims, q.Continuous) (hch : ChoiceOk prims probs)
    (hp : 0 < p ∧ p ≤ 1) (hU : Universal n (CanDraw n prims probs)) {threshold : Option ℝ}
    (hth : ∀ x, threshold = some x → x < 1) {B : ℕ} (hB : n ≤ B) (hB1 : prims.length ≤ B)
    (hB2 : ∀ q ∈ prims, ∀ lists, q.allowedApplyTo = some lists → lists.length ≤ B) :
    ∃ (δ : ℝ) (K : ℕ), 0 < δ ∧ δ ≤ 1 ∧ 0 < K ∧ ∀ {c : Client} {Cs : List Compiler}, Session 0 c Cs →
      (∀ x ∈ c.world.entries, x.toVal.Exact) → ∀ {C : Compiler}, C ∈ Cs → C.dimension = 2 ^ n → C.primitives = prims →
      C.probabilities = probs → C.appendProbability = p → 0 ≤ C.annealingRate → C.Truthy →
      ∀ {target : Unitary}, target.Exact (2 ^ n) → ∀ m : ℕ,
        Measurable (fun t => stepCount (C.compile 0 target threshold m (c.world.reseed t))) ∧
        (∀ j : ℕ, Rng.tapes B {t | (j : ENNReal) < stepCount (C.compile 0 target threshold m (c.world.reseed t))} ≤
          ENNReal.ofReal ((1 - δ) ^ (j / K))) ∧
        ∫⁻ t, stepCount (C.compile 0 target threshold m (c.world.reseed t)) ∂Rng.tapes B ≤ ENNReal.ofReal (K / δ) := by
  obtain ⟨δ, K, h1, h2, h3, h4⟩ := Metropolis.wins_all (cap := ((2 : ℝ) ^ 2 ^ n) ^ 2)
    (Metropolis.one_source hch hprims hcont hB hB1 hB2) (fun T hT ε hε => by
      obtain ⟨gates, g1, g2⟩ := hU T hT ε hε
      exact ⟨gates, ⟨gates.map fun v => [v], (flatten_singletons gates).symm, fun l hl => by
        obtain ⟨v, hv, rfl⟩ := List.mem_map.mp hl
        exact ((C77_can_draw hch (g1 v hv)).bind (k := fun v => Pure.pure [v]) (Rng.Possible.pure [v])).result⟩, g2⟩)
    (by positivity) hp.1 hp.2 (allowed_pos hth)
  refine ⟨δ, K, h1, h2, h3, ?_⟩
  intro c Cs hs hex C hC hD hCp hCr hCa hrate hTr target ht m
  obtain ⟨b, hb, -, hb0⟩ := hs.ok.2.alive C hC
  subst hCp hCr hCa
  refine steps_of_wins (m := m) (M := C.compile 0 target threshold m) (prop := C.proposal 0) (b := b) (fun t => ?_)
    (C88_compile hs hex hC hD hprims hcont hTr ht threshold m) h1 h2 h3 fun j => by
      unfold Compiler.proposal; rw [hD]; exact h4 _ ht.unitary C.annealingRate hrate j ⟨[], b⟩ ⟨.nil, hb0 hrate⟩
  exact follows_of_post hD (hs.ok.2.dim C hC).2 hex (fun v hv => generated_good hprims (by rw [← hD]; exact hv)) ht
    (compile_post hTr (hs.ok.1.wf.reseed t) hb)

/-- C95 for `compile_layered`, with universal layers. -/
theorem C95_compileLayered_steps_all {n : ℕ} {counts : List (Primitive × ℤ)} {p : ℝ}
    (hprims : ∀ pc ∈ counts, pc.1.Valid n) (hcounts : ∀ pc ∈ counts, 0 ≤ pc.2)
    (hcont : ∀ pc ∈ counts, 0 < pc.2 → pc.1.allowedApplyTo ≠ some [] ∧ pc.1.Continuous) (hp : 0 < p ∧ p ≤ 1)
    (hU : ∀ T ∈ unitaryGroup (Fin (2 ^ n)) ℂ, ∀ ε > 0, ∃ layers : List (List EntryVal),
      (∀ l ∈ layers, CanDrawLayer n counts l) ∧ 1 - overlap T (circuit n layers.flatten) < ε)
    {threshold : Option ℝ} (hth : ∀ x, threshold = some x → x < 1) {B : ℕ} (hB : n ≤ B) (hB1 : 1 ≤ B)
    (hB2 : ∀ pc ∈ counts, ∀ lists, pc.1.allowedApplyTo = some lists → lists.length ≤ B)
    (hB3 : (counts.map fun pc => pc.2.toNat).sum ≤ B) :
    ∃ (δ : ℝ) (K : ℕ), 0 < δ ∧ δ ≤ 1 ∧ 0 < K ∧ ∀ {c : Client} {Cs : List Compiler}, Session 0 c Cs →
      (∀ x ∈ c.world.entries, x.toVal.Exact) → ∀ {C : Compiler}, C ∈ Cs → C.dimension = 2 ^ n →
      C.appendProbability = p → 0 ≤ C.annealingRate → ∀ {target : Unitary}, target.Exact (2 ^ n) → ∀ m : ℕ,
        Measurable (fun t => stepCount (C.compileLayered 0 target counts threshold m (c.world.reseed t))) ∧
        (∀ j : ℕ, Rng.tapes B {t | (j : ENNReal) <
          stepCount (C.compileLayered 0 target counts threshold m (c.world.reseed t))} ≤
            ENNReal.ofReal ((1 - δ) ^ (j / K))) ∧
        ∫⁻ t, stepCount (C.compileLayered 0 target counts threshold m (c.world.reseed t)) ∂Rng.tapes B ≤
          ENNReal.ofReal (K / δ) := by
  have hl : ∀ l, CanDrawLayer n counts l → Rng.Result
      (Metropolis.layer (fun p => createRandomEntryVal 0 (2 ^ n) [p] none) counts) l := by
    intro l hl
    obtain ⟨groups, h1, h2⟩ := hl
    refine (Metropolis.layer_possible (Metropolis.groups_mono h1 fun pc hpc h0 v hv => ?_) h2).result
    refine C77_can_draw ?_ hv
    unfold ChoiceOk
    rw [filter_usable, show placeable [pc.1] = [pc.1] by simp [placeable, (hcont pc hpc h0).1]]
    exact Nat.one_pos
  obtain ⟨δ, K, h1, h2, h3, h4⟩ := Metropolis.wins_all (cap := ((2 : ℝ) ^ 2 ^ n) ^ 2)
    (Metropolis.layer_source hprims hcounts hcont hB hB1 hB2 hB3) (fun T hT ε hε => by
      obtain ⟨layers, g1, g2⟩ := hU T hT ε hε
      exact ⟨layers.flatten, ⟨layers, rfl, fun l hl' => hl l (g1 l hl')⟩, g2⟩)
    (by positivity) hp.1 hp.2 (allowed_pos hth)
  refine ⟨δ, K, h1, h2, h3, ?_⟩
  intro c Cs hs hex C hC hD hCa hrate target ht m
  obtain ⟨b, hb, -, hb0⟩ := hs.ok.2.alive C hC
  subst hCa
  refine steps_of_wins (m := m) (M := C.compileLayered 0 target counts threshold m) (prop := C.layeredProposal 0 counts) (b := b)
    (fun t => ?_) (C88_compileLayered hs hex hC hD hprims (fun pc hpc h => (hcont pc hpc h).2) ht threshold m) h1 h2 h3
    fun j => by
      unfold Compiler.layeredProposal; rw [hD]; exact h4 _ ht.unitary C.annealingRate hrate j ⟨[], b⟩ ⟨.nil, hb0 hrate⟩
  exact follows_of_post hD (hs.ok.2.dim C hC).2 hex
    (fun v hv => generatedLayer_good hprims (by rw [← hD]; exact hv)) ht (compileLayered_post (hs.ok.1.wf.reseed t) hb)

/-- C95: the sequence returned by `compile` has at most as many gates as there were steps, so its expected length has the
same bound. -/
theorem C95_length {n : ℕ} {c : Client} {Cs : List Compiler} (hs : Session 0 c Cs)
    (hex : ∀ x ∈ c.world.entries, x.toVal.Exact) {C : Compiler} (hC : C ∈ Cs) (hD : C.dimension = 2 ^ n)
    (hprims : ∀ q ∈ C.primitives, q.Valid n) (hT : C.Truthy) {target : Unitary} (ht : target.Exact (2 ^ n))
    (threshold : Option ℝ) (m : ℤ) {gates : List EntryVal} {costs : List ℝ}
    (h : ReturnsGates gates costs (C.compile 0 target threshold m c.world)) :
    (gates.length : ENNReal) ≤ stepCount (C.compile 0 target threshold m c.world) := by
  obtain ⟨b, hb, -, -⟩ := hs.ok.2.alive C hC
  have hf := follows_of_post hD (hs.ok.2.dim C hC).2 hex
    (fun v hv => generated_good hprims (by rw [← hD]; exact hv)) ht
    (compile_post (target := target) (threshold := threshold) (m := m) hT hs.ok.1.wf hb)
  obtain ⟨R', hR', -, v, hv', rfl⟩ := h
  unfold FollowsWalk at hf
  rcases hx : Metropolis.run n (target.matrix.toMatrix (2 ^ n)) threshold C.annealingRate (((2 : ℝ) ^ 2 ^ n) ^ 2)
    (C.proposal 0) m.toNat ⟨[], b⟩ c.world.rng with ⟨e | tr, r'⟩
  · rw [hx] at hf
    rw [hf.1] at hR'
    cases hR'
  · rw [hx] at hf
    obtain ⟨-, R, hR, hc, ⟨undo, hv⟩, -⟩ := hf
    rw [hR] at hR'
    cases hR'
    rw [hv] at hv'
    cases hv'
    have := Metropolis.run_short (fun _ _ _ _ h => proposal_length h) hx
    unfold stepCount
    rw [hR]
    simp only [hc, List.length_map]
    simp only [List.length_nil, zero_add] at this
    exact_mod_cast this

/-! ## Example -/

/-- C95: a program makes the compiler of the examples for two qubits.  There is a number of steps that suffices on average
for every target, with every limit. -/
example (rng : Rng) : ∃ (c : Client) (C : Compiler) (N : ℝ), Session 0 c [C] ∧ c.world.rng = rng ∧
    C.primitives.length = 2 ∧ ∀ (target : Unitary), target.Exact 4 → ∀ m : ℕ,
      ∫⁻ t, stepCount (C.compile 0 target none m (c.world.reseed t)) ∂Rng.tapes 2 ≤ ENNReal.ofReal N := by
  obtain ⟨⟨xy, hxy, d1, -⟩, -, ⟨ms, hms, d2, -⟩⟩ := C27_parameterized
  have hs := Session.newCompiler 4 [⟨.inr xy, none⟩, ⟨.inr ms, none⟩] false none (1 / 2) 1
    (Session.start (τ := 0) rng) (new_compiler_ok false none (1 / 2) 1 (by norm_num) (by
      intro q hq
      simp only [List.mem_cons, List.not_mem_nil, or_false] at hq
      rcases hq with rfl | rfl <;> simp [Primitive.getDimension, d1, d2]) _)
  have hpl : placeable ([⟨.inr xy, none⟩, ⟨.inr ms, none⟩] : List Primitive) = [⟨.inr xy, none⟩, ⟨.inr ms, none⟩] := by
    simp [placeable]
  have hsel : ∀ (i : ℕ) (q : Primitive), ([⟨.inr xy, none⟩, ⟨.inr ms, none⟩] : List Primitive)[i]? = some q →
      Selectable [⟨.inr xy, none⟩, ⟨.inr ms, none⟩] none q := fun i q hi => ⟨i, by rw [hpl]; exact hi, by simp⟩
  obtain ⟨δ, K, -, -, -, g4⟩ := C95_compile_steps_all (n := 2) (native_valid le_rfl hxy hms) (native_continuous hxy hms)
    (probs := none) (by simp [ChoiceOk, Compiler.usable]) (p := 1 / 2) (by norm_num)
    (C77_native_universal hxy hms (native_valid le_rfl hxy hms)
      (fun i hi => ⟨_, hsel 0 _ rfl, rfl, acts_default (by simp) (by simpa using hi)⟩)
      (connected_all fun i hi j hj hij => ⟨_, hsel 1 _ rfl, rfl, acts_default (by simpa using hij)
        (by simp; omega)⟩))
    (threshold := none) (by simp) (B := 2) le_rfl (by simp) (by
      intro q hq lists hl
      simp only [List.mem_cons, List.not_mem_nil, or_false] at hq
      rcases hq with rfl | rfl <;> cases hl)
  exact ⟨_, _, K / δ, hs, rfl, rfl, fun target ht m => (g4 hs (by simp [Client.start]) List.mem_cons_self
    rfl rfl rfl rfl (by norm_num) ⟨by simp, by simp⟩ ht m).2.2⟩

end Stoq
