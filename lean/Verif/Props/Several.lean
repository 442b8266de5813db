import Verif.Proofs.Several

/-! # C94: the probability of success is the same for all targets, also for several searches in a row -/

namespace Stoq

open Matrix MeasureTheory Compiler UnitaryDefinitions

/-- C94: with a universal set of gates the numbers `δ` and `K` of C77 do not depend on the target: after `m` steps of
`compile` any target at all is found with probability at least `1 - (1 - δ) ^ ⌊m / K⌋`.  The same holds for programs that
call `compile` `k` times with the same compiler, whose annealing goes on, with targets that may depend on the sequences
found before: all of them are found with probability at least `1 - k * (1 - δ) ^ ⌊m / K⌋`. -/
theorem C94_compile_all {n : ℕ} {prims : List Primitive} {probs : Option (List ℝ)} {p : ℝ}
    (hprims : ∀ q ∈ prims, q.Valid n) (hcont : ∀ q ∈ prims, q.Continuous) (hch : ChoiceOk prims probs)
    (hp : 0 < p ∧ p ≤ 1) (hU : Universal n (CanDraw n prims probs)) {threshold : Option ℝ}
    (hth : ∀ x, threshold = some x → x < 1) {B : ℕ} (hB : n ≤ B) (hB1 : prims.length ≤ B)
    (hB2 : ∀ q ∈ prims, ∀ lists, q.allowedApplyTo = some lists → lists.length ≤ B) :
    ∃ (δ : ℝ) (K : ℕ), 0 < δ ∧ δ ≤ 1 ∧ 0 < K ∧ ∀ {c : Client} {Cs : List Compiler}, Session 0 c Cs →
      (∀ x ∈ c.world.entries, x.toVal.Exact) → ∀ {C : Compiler}, C ∈ Cs → C.dimension = 2 ^ n → C.primitives = prims →
      C.probabilities = probs → C.appendProbability = p → 0 ≤ C.annealingRate → C.Truthy →
      ∀ {next : List (List EntryVal) → Unitary}, (∀ found, (next found).Exact (2 ^ n)) → ∀ m k : ℕ,
        1 - ENNReal.ofReal (k * (1 - δ) ^ (m / K)) ≤ Rng.tapes B {t | AllFound n threshold
          (fun target => C.compile 0 target threshold m) next k [] (c.world.reseed t)} := by
  obtain ⟨δ, K, h1, h2, h3, h4⟩ := Metropolis.wins_all (cap := ((2 : ℝ) ^ 2 ^ n) ^ 2)
    (Metropolis.one_source hch hprims hcont hB hB1 hB2) (fun T hT ε hε => by
      obtain ⟨gates, g1, g2⟩ := hU T hT ε hε
      exact ⟨gates, ⟨gates.map fun v => [v], (flatten_singletons gates).symm, fun l hl => by
        obtain ⟨v, hv, rfl⟩ := List.mem_map.mp hl
        exact ((C77_can_draw hch (g1 v hv)).bind (k := fun v => Pure.pure [v]) (Rng.Possible.pure [v])).result⟩, g2⟩)
    (by positivity) hp.1 hp.2 (allowed_pos hth)
  refine ⟨δ, K, h1, h2, h3, ?_⟩
  intro c Cs hs hex C hC hD hCp hCr hCa hrate hTr next hnext m k
  obtain ⟨b, hb, -, hb0⟩ := hs.ok.2.alive C hC
  have hcap := (hs.ok.2.dim C hC).2
  subst hCp hCr hCa
  have hG : ∀ v, Generated 0 C.dimension C.primitives C.probabilities v → v.Fits n ∧ v.Exact := fun v hv =>
    generated_good hprims (by rw [← hD]; exact hv)
  refine allFound_of_wins (C := C) (prop := C.proposal 0) (fun target ht w b hw => ?_) hnext h1.le h2
    (fun T hT b hb => by
      unfold Compiler.proposal; rw [hD]; exact h4 T hT C.annealingRate hrate m ⟨[], b⟩ ⟨.nil, hb⟩)
    ⟨hs.ok.1.wf, hex, hb, hb0 hrate⟩ k
  have hpost := compile_post (target := target) (threshold := threshold) (m := m) hTr hw.wf hw.beta
  exact ⟨follows_of_post hD hcap hw.exact hG ht hpost, fun b' hb' => between_of_post
    (M := C.compile 0 target threshold m) hw hrate hcap (compile_gives (fun v hv => (hG v hv).2) _ _ _) hpost hb'⟩

/-- C94 for `compile_layered`, with layers instead of gates. -/
theorem C94_compileLayered_all {n : ℕ} {counts : List (Primitive × ℤ)} {p : ℝ}
    (hprims : ∀ pc ∈ counts, pc.1.Valid n) (hcounts : ∀ pc ∈ counts, 0 ≤ pc.2)
    (hcont : ∀ pc ∈ counts, 0 < pc.2 → pc.1.allowedApplyTo ≠ some [] ∧ pc.1.Continuous) (hp : 0 < p ∧ p ≤ 1)
    (hU : ∀ T ∈ unitaryGroup (Fin (2 ^ n)) ℂ, ∀ ε > 0, ∃ layers : List (List EntryVal),
      (∀ l ∈ layers, CanDrawLayer n counts l) ∧ 1 - overlap T (circuit n layers.flatten) < ε)
    {threshold : Option ℝ} (hth : ∀ x, threshold = some x → x < 1) {B : ℕ} (hB : n ≤ B) (hB1 : 1 ≤ B)
    (hB2 : ∀ pc ∈ counts, ∀ lists, pc.1.allowedApplyTo = some lists → lists.length ≤ B)
    (hB3 : (counts.map fun pc => pc.2.toNat).sum ≤ B) :
    ∃ (δ : ℝ) (K : ℕ), 0 < δ ∧ δ ≤ 1 ∧ 0 < K ∧ ∀ {c : Client} {Cs : List Compiler}, Session 0 c Cs →
      (∀ x ∈ c.world.entries, x.toVal.Exact) → ∀ {C : Compiler}, C ∈ Cs → C.dimension = 2 ^ n →
      C.appendProbability = p → 0 ≤ C.annealingRate →
      ∀ {next : List (List EntryVal) → Unitary}, (∀ found, (next found).Exact (2 ^ n)) → ∀ m k : ℕ,
        1 - ENNReal.ofReal (k * (1 - δ) ^ (m / K)) ≤ Rng.tapes B {t | AllFound n threshold
          (fun target => C.compileLayered 0 target counts threshold m) next k [] (c.world.reseed t)} := by
  have hl : ∀ l, CanDrawLayer n counts l → Rng.Result
      (Metropolis.layer (fun p => createRandomEntryVal 0 (2 ^ n) [p] none) counts) l := by
    intro l hl
    obtain ⟨groups, h1, h2⟩ := hl
    refine (Metropolis.layer_possible (Metropolis.groups_mono h1 fun pc hpc h0 v hv => ?_) h2).result
    refine C77_can_draw ?_ hv
    unfold ChoiceOk
    rw [filter_usable, show placeable [pc.1] = [pc.1] by simp [placeable, (hcont pc hpc h0).1]]
    exact Nat.one_pos
  obtain ⟨δ, K, h1, h2, h3, h4⟩ := Metropolis.wins_all (cap := ((2 : ℝ) ^ 2 ^ n) ^ 2)
    (Metropolis.layer_source hprims hcounts hcont hB hB1 hB2 hB3) (fun T hT ε hε => by
      obtain ⟨layers, g1, g2⟩ := hU T hT ε hε
      exact ⟨layers.flatten, ⟨layers, rfl, fun l hl' => hl l (g1 l hl')⟩, g2⟩)
    (by positivity) hp.1 hp.2 (allowed_pos hth)
  refine ⟨δ, K, h1, h2, h3, ?_⟩
  intro c Cs hs hex C hC hD hCa hrate next hnext m k
  obtain ⟨b, hb, -, hb0⟩ := hs.ok.2.alive C hC
  have hcap := (hs.ok.2.dim C hC).2
  subst hCa
  have hG : ∀ v, GeneratedLayer 0 C.dimension counts v → v.Fits n ∧ v.Exact := fun v hv =>
    generatedLayer_good hprims (by rw [← hD]; exact hv)
  refine allFound_of_wins (C := C) (prop := C.layeredProposal 0 counts) (fun target ht w b hw => ?_) hnext h1.le h2
    (fun T hT b hb => by
      unfold Compiler.layeredProposal; rw [hD]; exact h4 T hT C.annealingRate hrate m ⟨[], b⟩ ⟨.nil, hb⟩)
    ⟨hs.ok.1.wf, hex, hb, hb0 hrate⟩ k
  have hpost := compileLayered_post (counts := counts) (target := target) (threshold := threshold) (m := m) hw.wf hw.beta
  exact ⟨follows_of_post hD hcap hw.exact hG ht hpost, fun b' hb' => between_of_post
    (M := C.compileLayered 0 target counts threshold m) hw hrate hcap
    (compileLayered_gives (fun v hv => (hG v hv).2) _ _ _) hpost hb'⟩

/-- A single search. -/
theorem C94_one {n : ℕ} {threshold : Option ℝ} {M : Unitary → PyM World CompilerResult} {target : Unitary} {w : World} :
    AllFound n threshold M (fun _ => target) 1 [] w ↔ Succeeds n target threshold (M target w) := by
  constructor
  · rintro ⟨gates, ⟨R, v, h1, h2, h3⟩, h4, -⟩
    exact ⟨gates, _, ⟨R, h1, rfl, v, h2, h3⟩, h4⟩
  · rintro ⟨gates, costs, ⟨R, h1, -, v, h2, h3⟩, h4⟩
    exact ⟨gates, ⟨R, v, h1, h2, h3⟩, h4, trivial⟩

/-- C94 for the compiler of the examples, with `rotation_xy` and `xx` on any qubits and positive weights. -/
theorem C94_native_all {n : ℕ} (hn : 2 ≤ n) {xy ms : ParamUnitary} (hxy : ParamDefinitions.rotationXY 0 = .ok xy)
    (hms : ParamDefinitions.xx 0 = .ok ms) {probs : Option (List ℝ)}
    (hch : ∀ ps, probs = some ps → Rng.ValidP 2 ps ∧ ∀ x ∈ ps, 0 < x) {p : ℝ} (hp : 0 < p ∧ p ≤ 1)
    {threshold : Option ℝ} (hth : ∀ x, threshold = some x → x < 1) {B : ℕ} (hB : n ≤ B) :
    ∃ (δ : ℝ) (K : ℕ), 0 < δ ∧ δ ≤ 1 ∧ 0 < K ∧ ∀ {c : Client} {Cs : List Compiler}, Session 0 c Cs →
      (∀ x ∈ c.world.entries, x.toVal.Exact) → ∀ {C : Compiler}, C ∈ Cs → C.dimension = 2 ^ n →
      C.primitives = [⟨.inr xy, none⟩, ⟨.inr ms, none⟩] → C.probabilities = probs → C.appendProbability = p →
      0 ≤ C.annealingRate → C.Truthy →
      ∀ {next : List (List EntryVal) → Unitary}, (∀ found, (next found).Exact (2 ^ n)) → ∀ m k : ℕ,
        1 - ENNReal.ofReal (k * (1 - δ) ^ (m / K)) ≤ Rng.tapes B {t | AllFound n threshold
          (fun target => C.compile 0 target threshold m) next k [] (c.world.reseed t)} := by
  have hpl : placeable ([⟨.inr xy, none⟩, ⟨.inr ms, none⟩] : List Primitive) = [⟨.inr xy, none⟩, ⟨.inr ms, none⟩] := by
    simp [placeable]
  have hsel : ∀ (i : ℕ) (q : Primitive), ([⟨.inr xy, none⟩, ⟨.inr ms, none⟩] : List Primitive)[i]? = some q →
      Selectable [⟨.inr xy, none⟩, ⟨.inr ms, none⟩] probs q := fun i q hi => ⟨i, by rw [hpl]; exact hi,
    fun ps hps x hx => (hch ps hps).2 x (List.mem_of_getElem? hx)⟩
  refine C94_compile_all (native_valid hn hxy hms) (native_continuous hxy hms) ?_ hp ?_ hth hB
    (by simpa using hn.trans hB) ?_
  · unfold ChoiceOk
    rw [filter_usable, hpl]
    cases probs with
    | none => norm_num
    | some ps => exact (hch ps rfl).1
  · exact C77_native_universal hxy hms (native_valid hn hxy hms)
      (fun i hi => ⟨_, hsel 0 _ rfl, rfl, acts_default (by simp) (by simpa using hi)⟩)
      (connected_all fun i hi j hj hij => ⟨_, hsel 1 _ rfl, rfl, acts_default (by simpa using hij) (by simp [hi, hj])⟩)
  · intro q hq lists hl
    simp only [List.mem_cons, List.not_mem_nil, or_false] at hq
    rcases hq with rfl | rfl <;> cases hl

/-! ## Example -/

/-- C94: a program makes the compiler of the examples for two qubits and compiles ten gates one after the
other: a Molmer-Sorensen gate first, and then always that gate if the last sequence found has an even number of gates,
and a controlled not otherwise.  If enough
steps are allowed, all ten are found up to an overlap of 0.999 with probability at least 0.99. -/
example (rng : Rng) : ∃ (c : Client) (C : Compiler) (u v : Unitary) (m0 : ℕ),
    Session 0 c [C] ∧ c.world.rng = rng ∧ xx 0 (Real.pi / 4) = .ok u ∧ cnot 0 = .ok v ∧ ∀ m ≥ m0,
      1 - ENNReal.ofReal (1 / 100) ≤ Rng.tapes 2 {t | AllFound 2 (some (999 / 1000))
        (fun target => C.compile 0 target (some (999 / 1000)) m)
        (fun found => if (found.getLast?.getD []).length % 2 = 0 then u else v) 10 [] (c.world.reseed t)} := by
  obtain ⟨⟨xy, hxy, d1, -⟩, -, ⟨ms, hms, d2, -⟩⟩ := C27_parameterized
  obtain ⟨u, hu, -, hu2, -⟩ := C27_xx (Real.pi / 4)
  obtain ⟨v, hv, hv2, -⟩ := C27_cnot
  have hs := Session.newCompiler 4 [⟨.inr xy, none⟩, ⟨.inr ms, none⟩] false none (1 / 2) 1
    (Session.start (τ := 0) rng) (new_compiler_ok false none (1 / 2) 1 (by norm_num) (by
      intro q hq
      simp only [List.mem_cons, List.not_mem_nil, or_false] at hq
      rcases hq with rfl | rfl <;> simp [Primitive.getDimension, d1, d2]) _)
  obtain ⟨δ, K, g1, g2, g3, g4⟩ := C94_native_all (n := 2) le_rfl hxy hms (probs := none) (by simp)
    (p := 1 / 2) (by norm_num) (threshold := some (999 / 1000)) (by rintro x ⟨⟩; norm_num) (B := 2) le_rfl
  obtain ⟨q, hq⟩ := exists_pow_lt_of_lt_one (show (0 : ℝ) < 1 / 1000 by norm_num) (show 1 - δ < 1 by linarith)
  refine ⟨_, _, u, v, q * K, hs, rfl, hu, hv, fun m hm => ?_⟩
  refine le_trans (tsub_le_tsub_left (ENNReal.ofReal_le_ofReal ?_) 1) (g4 hs (by simp [Client.start]) List.mem_cons_self
    rfl rfl rfl rfl (by norm_num) ⟨by simp, by simp⟩ (fun found => ?_) m 10)
  · have := pow_le_pow_of_le_one (show 0 ≤ 1 - δ by linarith) (by linarith) ((Nat.le_div_iff_mul_le g3).mpr hm)
    push_cast
    linarith
  · split_ifs
    · exact hu2
    · exact hv2

end Stoq
