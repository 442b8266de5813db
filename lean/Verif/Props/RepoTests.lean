import Verif.Proofs.RepoParam
import Verif.Props.Machine

/-!
# Property C81: the library's own tests of unitaries pass

`Fine τ` is an accuracy that exact arithmetic and double precision have.
-/

namespace Stoq

open Matrix Tests

open scoped Matrix.Norms.L2Operator

variable {τ : Arith}

/-- Double precision has the accuracy, with matrix products in any order of summation and library functions with
small errors, and so has exact arithmetic with the thresholds of the code. -/
theorem C81_accuracy : Fine (.exact 0) ∧ Fine (.exact codeTau) ∧ Fine (Machine.double.arith codeTau) ∧
    ∀ (M : Machine) (u : ℝ), M.Ok 16 u → u ≤ 2 ^ (-51 : ℤ) → Fine (M.arith codeTau) := by
  have h51 : (32 * 16 * 2 ^ (-51 : ℤ) : ℝ) ≤ 2.5e-13 := by norm_num
  refine ⟨(Arith.exact_accurate (t := 0) le_rfl 16).weaken (by norm_num),
    (Arith.exact_accurate (by unfold codeTau; norm_num) 16).weaken (by unfold codeTau; norm_num),
    (C75_double (D := 16) (by norm_num) (by norm_num)).weaken ?_, fun M u h hu => ?_⟩
  · unfold codeTau
    push_cast
    linarith
  · have h1 : 16 * u ≤ 16 * 2 ^ (-51 : ℤ) := by linarith
    have := C75_rounded (δ := codeTau) h (by norm_num) (h1.trans (by norm_num)) (by unfold codeTau; norm_num)
    refine this.weaken ?_
    unfold codeTau
    push_cast
    generalize (2 : ℝ) ^ (-51 : ℤ) = z at hu h51
    linarith

/-- The tests of `Unitary` without random values pass in every arithmetic of this accuracy. -/
theorem C81_unitary (hτ : Fine τ) (fmt : ℕ → ℝ → String) :
    unitaryDefault τ = .ok () ∧ nonSquareMatrix τ = .ok () ∧ mismatchedDimension τ = .ok () ∧
    inverseFixed τ fmt = .ok () ∧ Tests.tensor τ = .ok () ∧ Tests.multiply τ = .ok () ∧ definitions τ = .ok () ∧
    Tests.rphi τ = .ok () ∧ displayName τ fmt = .ok () ∧ Tests.qasm τ fmt = .ok () ∧ Tests.jaqal τ fmt = .ok () :=
  ⟨pass_unitaryDefault hτ, pass_nonSquareMatrix τ, pass_mismatchedDimension τ, pass_inverseFixed hτ fmt, pass_tensor hτ,
    pass_multiply hτ, pass_definitions hτ, pass_rphi hτ, pass_displayName hτ fmt, pass_qasm hτ fmt, pass_jaqal hτ fmt⟩

/-- `test_non_unitary_matrix`: `Fine` says nothing about matrices that are not unitary, so this is about machines. -/
theorem C81_non_unitary {t : ℝ} (ht : t ≤ 1) : nonUnitaryMatrix (.exact t) = .ok () ∧
    ∀ (M : Machine) (D : ℕ) (u : ℝ), 1 ≤ D → M.Ok D u → u ≤ 1 / 100 → nonUnitaryMatrix (M.arith t) = .ok () := by
  refine ⟨pass_nonUnitaryMatrix ht fun a b h1 h2 h3 h4 h5 => ?_, fun M D u hD h hu => pass_nonUnitaryMatrix ht
    fun a b h1 h2 h3 h4 h5 => ?_⟩
  · show ‖∑ k ∈ Finset.range a.cols, a.val 0 k * b.val k 1 - 1‖ ≤ _
    rw [h1]
    norm_num [Finset.sum_range_succ, h2, h3, h4, h5]
  · have hD' : (1 : ℝ) ≤ D := by exact_mod_cast hD
    have hdot := h.dot a b 0 1
    rw [h1] at hdot
    have := h.dot_near hdot (b := 1) le_rfl (by linarith) (by norm_num [Finset.sum_range_succ, h2, h3, h4, h5])
      (by norm_num; linarith)
    rw [show ∑ k ∈ Finset.range 2, a.val 0 k * b.val k 1 = 1 by norm_num [Finset.sum_range_succ, h2, h3, h4, h5]] at this
    refine this.trans ?_
    norm_num
    linarith

/-- `test_inverse` with a random matrix passes for every matrix that is unitary up to rounding. -/
theorem C81_inverse_random (hτ : Fine τ) {sample : Arr} {V : Matrix (Fin 2) (Fin 2) ℂ} (hr : sample.rows = 2)
    (hc : sample.cols = 2) (hs : NearMat (sample.toMatrix 2) V 4e-11) (hV : V ∈ unitaryGroup (Fin 2) ℂ) :
    inverseRandom τ sample = .ok () := pass_inverseRandom hτ hr hc hs hV

/-- `test_close_to` can fail: it passes when the random matrix is far from the T gate and fails when it is close. -/
theorem C81_close_to (hτ : Fine τ) {sample : Arr} {V : Matrix (Fin 2) (Fin 2) ℂ} (hr : sample.rows = 2)
    (hc : sample.cols = 2) (hs : NearMat (sample.toMatrix 2) V 4e-11) (hV : V ∈ unitaryGroup (Fin 2) ℂ) :
    (1e-8 ≤ overlap V Gate.T → overlap V Gate.T ≤ 0.9989999 → closeTo τ sample = .ok ()) ∧
    (0.9990001 ≤ overlap V Gate.T → closeTo τ sample = .error .assertion) :=
  ⟨pass_closeTo hτ hr hc hs hV, fail_closeTo hτ hr hc hs hV⟩

/-- In exact arithmetic the overlap decides. -/
theorem C81_close_to_exact {sample : Arr} {V : Matrix (Fin 2) (Fin 2) ℂ} (ha : sample.Is V)
    (hV : V ∈ unitaryGroup (Fin 2) ℂ) :
    closeTo 0 sample = if overlap V Gate.T < 0.999 then .ok () else .error .assertion := closeTo_exact ha hV

/-- `test_gms` passes in exact arithmetic, for every number of qubits. -/
theorem C81_gms : Tests.gms 0 = .ok () ∧ ∀ n, gmsOnce 0 n = .ok () := by
  refine ⟨?_, pass_gmsOnce_exact⟩
  unfold Tests.gms
  simp only [List.forM_eq_forM, List.forM_cons, List.forM_nil, pass_gmsOnce_exact, ok_bind]
  rfl

/-- `test_gms` with rounding: a round passes when the error of the gate is bounded by `1e-9`; this covers 3 qubits at
the accuracy `Fine`, and 4 and 5 qubits at a higher accuracy. -/
theorem C81_gms_rounded : (∀ τ, Fine τ → gmsOnce τ 3 = .ok ()) ∧
    (∀ τ, τ.Accurate 32 1e-13 → Tests.gms τ = .ok ()) ∧
    ∀ {n : ℕ} {τ : Arith} {δ : ℝ}, Budget n τ δ (12 * δ) (n.choose 2 + 1) →
      driftErr n δ (12 * δ) (n.choose 2 + 1) ≤ 1e-9 → 3 * 2 ^ n * δ ≤ 6e-11 → gmsOnce τ n = .ok () := by
  refine ⟨fun τ => pass_gmsOnce_three, fun τ hτ => ?_, pass_gmsOnce⟩
  have key : ∀ n, 2 ^ n ≤ 32 → driftErr n 1e-13 (12 * 1e-13) (n.choose 2 + 1) ≤ 1e-9 → 3 * 2 ^ n * (1e-13 : ℝ) ≤ 6e-11 →
      gmsOnce τ n = .ok () := fun n h1 h2 h3 =>
    pass_gmsOnce ⟨hτ.mono h1, by norm_num, by norm_num, h2.trans (by unfold driftLimit; norm_num)⟩ h2 h3
  unfold Tests.gms
  simp only [List.forM_eq_forM, List.forM_cons, List.forM_nil,
    key 3 (by norm_num) (by unfold driftErr stepErr; norm_num [Nat.choose]) (by norm_num),
    key 4 (by norm_num) (by unfold driftErr stepErr; norm_num [Nat.choose]) (by norm_num),
    key 5 (by norm_num) (by unfold driftErr stepErr; norm_num [Nat.choose]) (by norm_num), ok_bind]
  rfl

/-- The tests of `ParameterizedUnitary` pass, for all random values. -/
theorem C81_parameterized (hτ : Fine τ) (fmt : ℕ → ℝ → String) (r : Rng) :
    (parameterizedRotation τ fmt r).1 = .ok () ∧ parameterizedClassmethods τ = .ok () ∧
    parameterizedTimeEvolution τ = .ok () :=
  ⟨pass_parameterizedRotation hτ fmt r, pass_parameterizedClassmethods hτ, pass_parameterizedTimeEvolution hτ⟩

/-! ## The hypotheses can be met -/

example (fmt : ℕ → ℝ → String) : inverseFixed (Machine.double.arith codeTau) fmt = .ok () :=
  (C81_unitary C81_accuracy.2.2.1 fmt).2.2.2.1

example : nonUnitaryMatrix (Machine.double.arith codeTau) = .ok () :=
  (C81_non_unitary (t := codeTau) (by unfold codeTau; norm_num)).2 _ 16 _ (by norm_num)
    (Machine.double_ok (by norm_num) (by norm_num)) (by norm_num)

/-- The identity is far enough from the T gate, the T gate is not. -/
example : closeTo 0 (Arr.identity 2) = .ok () ∧
    ∃ a : Arr, closeTo (Machine.double.arith codeTau) a = .error .assertion ∧ closeTo 0 a = .error .assertion := by
  have hid : (Arr.identity 2).Is (1 : Matrix (Fin 2) (Fin 2) ℂ) := ⟨rfl, rfl, Arr.toMatrix_identity⟩
  constructor
  · rw [C81_close_to_exact hid (one_mem _), if_pos]
    have h : Complex.normSq (1 + Complex.exp (Real.pi / 4 * Complex.I)) = 2 + Real.sqrt 2 := by
      rw [show (Real.pi / 4 * Complex.I : ℂ) = ((Real.pi / 4 : ℝ) : ℂ) * Complex.I by push_cast; ring, Complex.exp_mul_I,
        ← Complex.ofReal_cos, ← Complex.ofReal_sin, Real.cos_pi_div_four, Real.sin_pi_div_four]
      simp [Complex.normSq_apply]
      nlinarith [Real.sq_sqrt (show (0 : ℝ) ≤ 2 by norm_num)]
    have h2 : ‖(1 : ℂ) + Complex.exp (Real.pi / 4 * Complex.I)‖ ^ 2 = 2 + Real.sqrt 2 := by rw [← h, Complex.normSq_eq_norm_sq]
    have h3 : Real.sqrt 2 < 1.5 := by rw [Real.sqrt_lt' (by norm_num)]; norm_num
    have h4 : ‖(1 : ℂ) + Complex.exp (Real.pi / 4 * Complex.I)‖ < 1.9 := by
      by_contra hc
      push Not at hc
      nlinarith
    simp only [overlap, Gate.T, conjTranspose_one, one_mul, trace_fin_two_of]
    norm_num at *
    linarith
  · have hT : (Arr.ofMatrix Gate.T).Is Gate.T := by
      refine ⟨rfl, rfl, ?_⟩
      ext i j
      simp only [Arr.toMatrix, Arr.ofMatrix, i.isLt, j.isLt, and_self, dite_true, Fin.eta]
    have h1 : overlap Gate.T Gate.T = 1 := overlap_self (by norm_num) T_mem
    refine ⟨Arr.ofMatrix Gate.T, (C81_close_to C81_accuracy.2.2.1 hT.1 hT.2.1 (V := Gate.T) ?_ T_mem).2
      (by rw [h1]; norm_num), by rw [C81_close_to_exact hT T_mem, if_neg (by rw [h1]; norm_num)]⟩
    rw [hT.2.2]
    exact CloseTo.near ⟨1, by simp, by norm_num⟩ (Unitary.norm_det_of_unitary T_mem)

end Stoq
