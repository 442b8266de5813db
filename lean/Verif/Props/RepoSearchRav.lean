import Verif.Proofs.RavFails
import Verif.Props.RepoSearchTests

/-!
# Property C84: the unit tests of random circuits (tests/test_verification.py)
-/

namespace Stoq

open Tests Matrix MeasureTheory Verification Compiler

namespace Tests

/-- A rotation about the first axis can be drawn. -/
theorem rotation_drawn {xy : ParamUnitary} (hxy : ParamDefinitions.rotationXY 0 = .ok xy) {prims : List Primitive}
    (hmem : (⟨.inr xy, none⟩ : Primitive) ∈ prims) {θ : ℝ} (h0 : 0 ≤ θ) (h1 : θ < 2 * Real.pi) :
    ∃ u : Unitary, u.matrix.toMatrix 2 = Gate.rot Gate.X θ ∧ CanDraw 2 prims none ⟨u, [0]⟩ := by
  have hπ := Real.pi_pos
  obtain ⟨⟨xy', e, -, h⟩, -⟩ := C27_parameterized
  rw [hxy] at e; cases e
  obtain ⟨u, u1, u2, u3, -⟩ := h θ 0 ⟨h0, h1.le⟩ ⟨le_rfl, by linarith⟩
  refine ⟨u, by simpa using u3.2.2, ⟨_, selectable_of_mem hmem rfl, ⟨[θ, 0], ?_, ?_, u1⟩, ⟨by simp, by simp⟩, by simp,
    u2.dim.symm, by simp⟩⟩
  · have he := ParamDefinitions.rotationXY_eq 0
    rw [hxy] at he
    rw [Except.ok.inj he]
    rfl
  · have he := ParamDefinitions.rotationXY_eq 0
    rw [hxy] at he
    rw [Except.ok.inj he]
    simp only [List.zip_cons_cons, List.zip_nil_right, List.mem_cons, List.not_mem_nil, or_false, forall_eq_or_imp, forall_eq]
    exact ⟨⟨h0, .inl h1⟩, ⟨le_rfl, .inl (by linarith)⟩⟩

theorem ms_drawn {ms : ParamUnitary} (hms : ParamDefinitions.xx 0 = .ok ms) {prims : List Primitive}
    (hmem : (⟨.inr ms, none⟩ : Primitive) ∈ prims) :
    ∃ u : Unitary, u.matrix.toMatrix 4 = 1 ∧ CanDraw 2 prims none ⟨u, [0, 1]⟩ := by
  have hπ := Real.pi_pos
  obtain ⟨-, -, ⟨ms', e, -, h⟩⟩ := C27_parameterized
  rw [hms] at e; cases e
  obtain ⟨u, u1, u2, u3, -⟩ := h 0 ⟨le_rfl, by linarith⟩
  refine ⟨u, by rw [u3.2.2]; simp [Gate.rot], ⟨_, selectable_of_mem hmem rfl, ⟨[0], ?_, ?_, u1⟩, ⟨by simp, by simp⟩, by simp,
    u2.dim.symm, by simp⟩⟩
  · have he := ParamDefinitions.xx_eq 0
    rw [hms] at he
    rw [Except.ok.inj he]
    rfl
  · have he := ParamDefinitions.xx_eq 0
    rw [hms] at he
    rw [Except.ok.inj he]
    simp only [List.zip_cons_cons, List.zip_nil_right, List.mem_cons, List.not_mem_nil, or_false, forall_eq]
    exact ⟨le_rfl, .inl (by linarith)⟩

theorem op_idle {u : Unitary} (h : u.matrix.toMatrix 2 = Gate.rot Gate.X 0) : EntryVal.op ⟨u, [0]⟩ 2 = 1 := by
  change embed 2 [0] (u.matrix.toMatrix 2) = 1
  rw [h]
  simp [Gate.rot, embed_one]

theorem op_idle2 {u : Unitary} (h : u.matrix.toMatrix 4 = 1) : EntryVal.op ⟨u, [0, 1]⟩ 2 = 1 := by
  change embed 2 [0, 1] (u.matrix.toMatrix 4) = 1
  rw [h, embed_one (by simp) (by simp)]

theorem op_flip {u : Unitary} (h : u.matrix.toMatrix 2 = Gate.rot Gate.X Real.pi) :
    overlap 1 (EntryVal.op ⟨u, [0]⟩ 2) = 0 := by
  have : EntryVal.op ⟨u, [0]⟩ 2 = embed 2 [0] ((-Complex.I) • Gate.X) := by
    rw [show (-Complex.I) • Gate.X = u.matrix.toMatrix 2 by rw [h]; simp [Gate.rot]]
    rfl
  rw [this]
  unfold overlap
  have : ((1 : Matrix (Fin (2 ^ 2)) (Fin (2 ^ 2)) ℂ)ᴴ * embed 2 [0] ((-Complex.I) • Gate.X)).trace = 0 := by
    rw [conjTranspose_one, one_mul]
    simp only [Matrix.trace, Matrix.diag_apply]
    refine Finset.sum_eq_zero fun i _ => ?_
    fin_cases i <;> simp [embed, Gate.X, gather, qubit]
  rw [this]
  simp

end Tests

/-- C84: `test_rav_sequence_no_inverse` and `test_xeb_sequence` pass whatever the random numbers are. -/
theorem C84_no_inverse (fmt : ℕ → ℝ → String) (t : Rng.Tape) :
    PassesOn (ravNoInverse 0 fmt) t ∧ PassesOn (xeb 0 fmt) t := ⟨pass_ravNoInverse fmt t, pass_xeb fmt t⟩

/-- C84: the probability that `test_rav_sequence` passes tends to one as the limit on the number of steps grows, and is
never one. -/
theorem C84_rav (fmt : ℕ → ℝ → String) {B : ℕ} (hB : 2 ≤ B) :
    (∃ (δ : ℝ) (K : ℕ), 0 < δ ∧ δ ≤ 1 ∧ 0 < K ∧ ∀ m : ℕ,
      1 - ENNReal.ofReal ((1 - δ) ^ (m / K)) ≤ Rng.tapes B {t | PassesOn (rav 0 fmt m) t}) ∧
    ∃ q : ℝ, 0 < q ∧ q ≤ 1 ∧ ∀ m : ℕ, ENNReal.ofReal (q * (1 / 2) ^ m) ≤ Rng.tapes B {t | ¬ PassesOn (rav 0 fmt m) t} := by
  obtain ⟨xy, ms, hxy, hms, -⟩ := nativePrimitives_eq
  have hset : ∀ (m : ℤ) (t : Rng.Tape), PassesOn (rav 0 fmt m) t ↔ _ := rav_iff fmt hxy hms
  simp only [hset]
  constructor
  · obtain ⟨δ, K, h1, h2, h3, h4⟩ := C78_native_rav (n := 2) le_rfl hxy hms (p := 0.5) (by norm_num) (t := 0.5) (by norm_num) hB
    exact ⟨δ, K, h1, h2, h3, fun m => h4 (.start (Rng.start (fun _ => ⟨0, by norm_num⟩, fun _ => 0))) (by simp [Client.start]) (by norm_num) m⟩
  · have hv := native_valid (n := 2) le_rfl hxy hms
    have hch : ChoiceOk [(⟨.inr xy, none⟩ : Primitive), ⟨.inr ms, none⟩] none := choiceOk_of (by simp) (by simp)
    have hf := Metropolis.one_source hch hv (native_continuous hxy hms) (B := B) hB (by simpa using hB) (by
      intro q hq lists hl
      simp only [List.mem_cons, List.not_mem_nil, or_false] at hq
      rcases hq with rfl | rfl <;> cases hl)
    have hπ := Real.pi_pos
    obtain ⟨x, x1, x2⟩ := rotation_drawn hxy (prims := [⟨.inr xy, none⟩, ⟨.inr ms, none⟩]) (by simp) (θ := Real.pi) hπ.le (by linarith)
    obtain ⟨y, y1, y2⟩ := rotation_drawn hxy (prims := [⟨.inr xy, none⟩, ⟨.inr ms, none⟩]) (by simp) (θ := 0) le_rfl (by linarith)
    have hres : ∀ v, CanDraw 2 [(⟨.inr xy, none⟩ : Primitive), ⟨.inr ms, none⟩] none v →
        Rng.Result (Metropolis.one (createRandomEntryVal 0 (2 ^ 2) [⟨.inr xy, none⟩, ⟨.inr ms, none⟩] none)) [v] := fun v hv =>
      ((C77_can_draw hch hv).bind (k := fun v => Pure.pure [v]) (Rng.Possible.pure [v])).result
    obtain ⟨q, h1, h2, h3⟩ := fails_of_word hf (ws := [⟨x, [0]⟩] :: List.replicate 9 [⟨y, [0]⟩]) (k := 10) (t := 0.5)
      (rate := 0.1) (cap := ((2 : ℝ) ^ 2 ^ 2) ^ 2)
      (by
        intro l hl
        rcases List.mem_cons.mp hl with rfl | hl
        · exact hres _ x2
        · rw [(List.mem_replicate.mp hl).2]; exact hres _ y2) (by simp) (by
      have : circuit 2 (List.flatten ([⟨x, [0]⟩] :: List.replicate 9 [⟨y, [0]⟩])) = EntryVal.op ⟨x, [0]⟩ 2 := by
        simp [List.replicate, circuit, op_idle y1]
      rw [this, op_flip x1]
      norm_num)
    refine ⟨q, h1, h2, fun m => h3 (skip := (0.5 : ℝ) = 0 ∨ (m : ℤ) = 0) (w := (Client.start (Rng.start (fun _ => ⟨0, by norm_num⟩, fun _ => 0))).world)
      (M := generateRavSequence 0 4 [⟨.inr xy, none⟩, ⟨.inr ms, none⟩] false 10 (some 0.5) 0.5 none m) fun t' => ?_⟩
    exact C42_rav_is_plan (c := fresh t') (.start _) (by simp [fresh, Client.start]) hv (by simp) (arr := false) (by simp) (L := 10) (by norm_num)
      (t := 0.5) (by norm_num) 0.5 none m

/-- C84: the same for `test_layered_rav_sequence`. -/
theorem C84_layered_rav (fmt : ℕ → ℝ → String) {B : ℕ} (hB : 4 ≤ B) :
    (∃ (δ : ℝ) (K : ℕ), 0 < δ ∧ δ ≤ 1 ∧ 0 < K ∧ ∀ m : ℕ,
      1 - ENNReal.ofReal ((1 - δ) ^ (m / K)) ≤ Rng.tapes B {t | PassesOn (layeredRav 0 fmt m) t}) ∧
    ∃ q : ℝ, 0 < q ∧ q ≤ 1 ∧ ∀ m : ℕ,
      ENNReal.ofReal (q * (1 / 2) ^ m) ≤ Rng.tapes B {t | ¬ PassesOn (layeredRav 0 fmt m) t} := by
  obtain ⟨xy, ms, hxy, hms, -⟩ := nativePrimitives_eq
  have hset : ∀ (m : ℤ) (t : Rng.Tape), PassesOn (layeredRav 0 fmt m) t ↔ _ := layeredRav_iff fmt hxy hms
  simp only [hset]
  constructor
  · obtain ⟨δ, K, h1, h2, h3, h4⟩ := C78_native_layered_rav (n := 2) le_rfl hxy hms 3 1 (p := 0.5) (by norm_num) (t := 0.5) (by norm_num)
      (B := B) (by omega) hB
    exact ⟨δ, K, h1, h2, h3, fun m => h4 (.start (Rng.start (fun _ => ⟨0, by norm_num⟩, fun _ => 0))) (by simp [Client.start]) (by norm_num) m⟩
  · have hv : ∀ pc ∈ [((⟨.inr xy, none⟩ : Primitive), (3 : ℤ)), (⟨.inr ms, none⟩, 1)], pc.1.Valid 2 := by
      simpa using native_ok hxy hms
    have hf := Metropolis.layer_source hv (by simp) (by
      simpa using ⟨rotationXY_continuous hxy, xx_continuous hms⟩) (B := B) (by omega) (by omega) (by simp) (by simpa using hB)
    have hπ := Real.pi_pos
    obtain ⟨x, x1, x2⟩ := rotation_drawn hxy (prims := [⟨.inr xy, none⟩]) (by simp) (θ := Real.pi) hπ.le (by linarith)
    obtain ⟨y, y1, y2⟩ := rotation_drawn hxy (prims := [⟨.inr xy, none⟩]) (by simp) (θ := 0) le_rfl (by linarith)
    obtain ⟨z, z1, z2⟩ := ms_drawn hms (prims := [⟨.inr ms, none⟩]) (by simp)
    have hres : ∀ v, CanDraw 2 [(⟨.inr xy, none⟩ : Primitive)] none v →
        Rng.Result (Metropolis.layer (fun p => createRandomEntryVal 0 (2 ^ 2) [p] none)
          [(⟨.inr xy, none⟩, (3 : ℤ)), (⟨.inr ms, none⟩, 1)]) [v, ⟨y, [0]⟩, ⟨y, [0]⟩, ⟨z, [0, 1]⟩] := by
      intro v hv
      refine (Metropolis.layer_possible (groups := [[v, ⟨y, [0]⟩, ⟨y, [0]⟩], [⟨z, [0, 1]⟩]])
        (.cons ⟨rfl, ?_⟩ (.cons ⟨rfl, ?_⟩ .nil)) (List.Perm.refl _)).result
      · simp only [List.mem_cons, List.not_mem_nil, or_false, forall_eq_or_imp, forall_eq]
        exact ⟨C77_can_draw (choiceOk_of (by simp) (by simp)) hv, C77_can_draw (choiceOk_of (by simp) (by simp)) y2,
          C77_can_draw (choiceOk_of (by simp) (by simp)) y2⟩
      · simp only [List.mem_cons, List.not_mem_nil, or_false, forall_eq]
        exact C77_can_draw (choiceOk_of (by simp) (by simp)) z2
    obtain ⟨q, h1, h2, h3⟩ := fails_of_word hf (ws := [⟨x, [0]⟩, ⟨y, [0]⟩, ⟨y, [0]⟩, ⟨z, [0, 1]⟩] ::
        List.replicate 9 [⟨y, [0]⟩, ⟨y, [0]⟩, ⟨y, [0]⟩, ⟨z, [0, 1]⟩]) (k := 10) (t := 0.5)
      (rate := 0.1) (cap := ((2 : ℝ) ^ 2 ^ 2) ^ 2)
      (by
        intro l hl
        rcases List.mem_cons.mp hl with rfl | hl
        · exact hres _ x2
        · rw [(List.mem_replicate.mp hl).2]; exact hres _ y2) (by simp) (by
      have : circuit 2 (List.flatten ([⟨x, [0]⟩, ⟨y, [0]⟩, ⟨y, [0]⟩, ⟨z, [0, 1]⟩] ::
          List.replicate 9 [⟨y, [0]⟩, ⟨y, [0]⟩, ⟨y, [0]⟩, ⟨z, [0, 1]⟩])) = EntryVal.op ⟨x, [0]⟩ 2 := by
        simp [List.replicate, circuit, op_idle y1, op_idle2 z1]
      rw [this, op_flip x1]
      norm_num)
    refine ⟨q, h1, h2, fun m => h3 (skip := (0.5 : ℝ) = 0 ∨ (m : ℤ) = 0) (w := (Client.start (Rng.start (fun _ => ⟨0, by norm_num⟩, fun _ => 0))).world)
      (M := generateLayeredRavSequence 0 4 [(⟨.inr xy, none⟩, 3), (⟨.inr ms, none⟩, 1)] 10 (some 0.5) 0.5 m) fun t' => ?_⟩
    exact C43_layered_is_plan (c := fresh t') (.start _) (by simp [fresh, Client.start]) hv (L := 10) (by norm_num)
      (t := 0.5) (by norm_num) 0.5 m

/-- There are random numbers for which `test_rav_sequence` fails with the default limit of 10000 steps, and a limit with
which it passes for some. -/
example (fmt : ℕ → ℝ → String) : (∃ t, ¬ PassesOn (rav 0 fmt 10000) t) ∧
    ∃ (m : ℕ) (t : Rng.Tape), PassesOn (rav 0 fmt m) t := by
  obtain ⟨⟨δ, K, h1, h2, h3, h⟩, q, g1, -, h'⟩ := C84_rav fmt (B := 2) le_rfl
  refine ⟨exists_tape (by positivity) (h' 10000), K, ?_⟩
  refine exists_tape (B := 2) h1 (le_trans ?_ (h K))
  rw [Nat.div_self h3, pow_one, ← ENNReal.ofReal_one, ← ENNReal.ofReal_sub _ (by linarith)]
  exact ENNReal.ofReal_le_ofReal (by linarith)

end Stoq
