import Verif.Proofs.RepoCompileTests

/-!
# Properties C83: the unit tests that compile by random search (tests/test_compiler.py)

The tests of Model/TestsCompile in exact arithmetic, as functions of the random tape.
-/

namespace Stoq

open Tests Matrix MeasureTheory

namespace Tests

theorem approximate_word {z u : Unitary} (hz : z.matrix.toMatrix 2 = (-Complex.I) • Gate.Z)
    (hu : u.Holds (Gate.rot Gate.Z Real.pi * Gate.rot Gate.Y 0 * Gate.rot Gate.Z 0)) :
    overlap (z.matrix.toMatrix (2 ^ 1)) (circuit 1 [⟨u, [0]⟩]) = 1 := by
  have h : circuit 1 [⟨u, [0]⟩] = z.matrix.toMatrix (2 ^ 1) := by
    simp only [circuit, op_whole]
    rw [one_mul, show u.matrix.toMatrix (2 ^ 1) = _ from hu.2.2, show z.matrix.toMatrix (2 ^ 1) = _ from hz]
    simp [Gate.rot]
  rw [h, overlap_self (by norm_num)]
  rw [← h]
  simp only [circuit, op_whole]
  rw [one_mul, show u.matrix.toMatrix (2 ^ 1) = _ from hu.2.2]
  exact (mem_specialUnitaryGroup_iff.mp (mul_mem (mul_mem (Gate.rot_Z_su _) (Gate.rot_Y_su _)) (Gate.rot_Z_su _))).1

end Tests

/-- The test passes when it starts with the tape `t`: it ends without an exception. -/
def PassesOn (test : PyM Client Unit) (t : Rng.Tape) : Prop := (test (Client.start (Rng.start t))).1 = .ok ()

/-- C83: `test_compile_identity` passes whatever the random numbers are, for every limit on the number of steps. -/
theorem C83_compile_identity (fmt : ℕ → ℝ → String) (m : ℤ) (t : Rng.Tape) : PassesOn (compileIdentity 0 fmt m) t :=
  pass_compileIdentity fmt m t

/-- C83: the probability that `test_compile_sigmaz` passes tends to one as the limit on the number of steps grows, and
it is not one: with probability at least `2⁻ᵐ` the test fails. -/
theorem C83_compile_sigmaz (fmt : ℕ → ℝ → String) {B : ℕ} (hB : 2 ≤ B) :
    (∃ (δ : ℝ) (K : ℕ), 0 < δ ∧ δ ≤ 1 ∧ 0 < K ∧ ∀ m : ℕ,
      1 - ENNReal.ofReal ((1 - δ) ^ (m / K)) ≤ Rng.tapes B {t | PassesOn (compileSigmaz 0 fmt m) t}) ∧
    ∀ m : ℕ, ENNReal.ofReal ((1 / 2) ^ m) ≤ Rng.tapes B {t | ¬ PassesOn (compileSigmaz 0 fmt m) t} := by
  obtain ⟨x, y, z, hx, hy, hz, x1, y1, z1, h⟩ := compileSigmaz_iff fmt
  simp only [PassesOn, h]
  constructor
  · refine finds_likely (w := [⟨x, [0]⟩, ⟨x, [0]⟩, ⟨y, [0]⟩, ⟨y, [0]⟩])
      (by simpa using ⟨fixed_valid (k := 1) hx le_rfl le_rfl, fixed_valid (k := 1) hy le_rfl le_rfl⟩)
      (mem_specialUnitaryGroup_iff.mp hz.2.2.2).1 (by simp [Primitive.Continuous]) (choiceOk_of (by simp) (by simp)) ?_ ?_
      (by omega) (by simpa using hB) (by simp)
    · simp only [List.mem_cons, List.not_mem_nil, or_false, forall_eq_or_imp, forall_eq]
      exact ⟨fixed_draw (by simp) hx (by simp) (by simp) (by simp), fixed_draw (by simp) hx (by simp) (by simp) (by simp),
        fixed_draw (by simp) hy (by simp) (by simp) (by simp), fixed_draw (by simp) hy (by simp) (by simp) (by simp)⟩
    · rw [sigmaz_word x1 y1 z1]
      norm_num [Metropolis.allowed]
  · intro m
    refine finds_unlikely ?_ B m
    rw [sigmaz_empty z1]
    norm_num [Metropolis.GoodEnough]

/-- C83: the same for `test_compile_two_qubits`. -/
theorem C83_compile_two_qubits (fmt : ℕ → ℝ → String) {B : ℕ} (hB : 2 ≤ B) :
    (∃ (δ : ℝ) (K : ℕ), 0 < δ ∧ δ ≤ 1 ∧ 0 < K ∧ ∀ m : ℕ,
      1 - ENNReal.ofReal ((1 - δ) ^ (m / K)) ≤ Rng.tapes B {t | PassesOn (compileTwoQubits 0 fmt m) t}) ∧
    ∀ m : ℕ, ENNReal.ofReal ((1 / 2) ^ m) ≤ Rng.tapes B {t | ¬ PassesOn (compileTwoQubits 0 fmt m) t} := by
  obtain ⟨x, y, x', T, hx, hy, x1, y1, x1', hT, hTu, h⟩ := compileTwoQubits_iff fmt
  simp only [PassesOn, h]
  constructor
  · refine finds_likely (w := [⟨y, [0, 1]⟩, ⟨x, [0]⟩, ⟨x, [0]⟩])
      (by simpa using ⟨fixed_valid (k := 1) hx le_rfl (by norm_num), fixed_valid (k := 2) hy (by norm_num) le_rfl⟩)
      hTu (by simp [Primitive.Continuous]) (choiceOk_of (by simp) (by simp)) ?_ ?_ hB (by simpa using hB) (by simp)
    · simp only [List.mem_cons, List.not_mem_nil, or_false, forall_eq_or_imp, forall_eq]
      exact ⟨fixed_draw (by simp) hy (by simp) (by simp) (by simp), fixed_draw (by simp) hx (by simp) (by simp) (by simp),
        fixed_draw (by simp) hx (by simp) (by simp) (by simp)⟩
    · rw [two_word x1 x1', ← hT, overlap_self (by norm_num) hTu]
      norm_num [Metropolis.allowed]
  · intro m
    refine finds_unlikely ?_ B m
    rw [hT, two_empty y1 x1']
    norm_num [Metropolis.GoodEnough]

/-- C83: the same for `test_compile_sigmaz_approximate`, which uses a gate with three parameters. -/
theorem C83_compile_sigmaz_approximate {B : ℕ} (hB : 1 ≤ B) :
    (∃ (δ : ℝ) (K : ℕ), 0 < δ ∧ δ ≤ 1 ∧ 0 < K ∧ ∀ m : ℕ,
      1 - ENNReal.ofReal ((1 - δ) ^ (m / K)) ≤ Rng.tapes B {t | PassesOn (compileSigmazApproximate 0 m) t}) ∧
    ∀ m : ℕ, ENNReal.ofReal ((1 / 2) ^ m) ≤ Rng.tapes B {t | ¬ PassesOn (compileSigmazApproximate 0 m) t} := by
  obtain ⟨z, hz, z1, h⟩ := compileSigmazApproximate_iff
  simp only [PassesOn, h]
  have hπ := Real.pi_pos
  obtain ⟨u, u1, u2, u3, -⟩ := testRotation_at (α := Real.pi) (β := 0) (γ := 0) ⟨hπ.le, by linarith⟩
    ⟨le_rfl, by linarith⟩ ⟨le_rfl, by linarith⟩
  constructor
  · refine finds_likely (w := [⟨u, [0]⟩]) (by simpa using testRotation_valid)
      (mem_specialUnitaryGroup_iff.mp hz.2.2.2).1 (by simpa [Primitive.Continuous] using testRotation_continuous)
      (choiceOk_of (by simp) (by simp)) ?_ ?_ hB (by simpa using hB) (by simp)
    · simp only [List.mem_cons, List.not_mem_nil, or_false, forall_eq]
      refine ⟨_, selectable_of_mem (List.mem_singleton_self _) rfl, ⟨[Real.pi, 0, 0], rfl, ?_, u1⟩, ⟨by simp, by simp⟩, by simp,
        u2.dim.symm, by simp⟩
      simp only [testRotation, List.zip_cons_cons, List.zip_nil_right, List.mem_cons, List.not_mem_nil, or_false,
        forall_eq_or_imp, forall_eq]
      refine ⟨⟨hπ.le, .inl (by linarith)⟩, ⟨le_rfl, .inl (by linarith)⟩, ⟨le_rfl, .inl (by linarith)⟩⟩
    · rw [approximate_word z1 u3]
      norm_num [Metropolis.allowed]
  · exact finds_unlikely (approximate_empty z1) B

/-- An event of positive probability has an element. -/
theorem exists_tape {B : ℕ} {E : Set Rng.Tape} {x : ℝ} (hx : 0 < x) (h : ENNReal.ofReal x ≤ Rng.tapes B E) : ∃ t, t ∈ E := by
  by_contra hc
  push Not at hc
  rw [Set.eq_empty_of_forall_notMem hc, measure_empty] at h
  exact absurd (ENNReal.ofReal_pos.mpr hx) (not_lt.mpr h)

/-- With the default limit of 10000 steps there are random numbers for which `test_compile_sigmaz` fails, and a limit
with which it passes for some. -/
example (fmt : ℕ → ℝ → String) : (∃ t, ¬ PassesOn (compileSigmaz 0 fmt 10000) t) ∧
    ∃ (m : ℕ) (t : Rng.Tape), PassesOn (compileSigmaz 0 fmt m) t := by
  obtain ⟨⟨δ, K, h1, h2, h3, h⟩, h'⟩ := C83_compile_sigmaz fmt (B := 2) le_rfl
  refine ⟨exists_tape (by positivity) (h' 10000), K, ?_⟩
  refine exists_tape (B := 2) h1 (le_trans ?_ (h K))
  rw [Nat.div_self h3, pow_one, ← ENNReal.ofReal_one, ← ENNReal.ofReal_sub _ (by linarith)]
  exact ENNReal.ofReal_le_ofReal (by linarith)

end Stoq
