import Mathlib.Analysis.CStarAlgebra.Matrix
import Mathlib.Analysis.CStarAlgebra.Spectrum
import Mathlib.LinearAlgebra.Matrix.DotProduct
import Mathlib.LinearAlgebra.Matrix.Hermitian
import Mathlib.Analysis.Complex.Order
import Mathlib.LinearAlgebra.Matrix.ToLinearEquiv

/-! # Operator norm, eigenvalues and singular values of matrices -/

namespace Stoq

open Matrix

open scoped Matrix.Norms.L2Operator ComplexOrder

variable {d : ℕ}

theorem eigen_of_spectrum {P : Matrix (Fin d) (Fin d) ℂ} {z : ℂ} (hz : z ∈ spectrum ℂ P) :
    ∃ v ≠ 0, P *ᵥ v = z • v := by
  rw [spectrum.mem_iff, Matrix.isUnit_iff_isUnit_det, isUnit_iff_ne_zero, not_not] at hz
  obtain ⟨v, hv, h⟩ := Matrix.exists_mulVec_eq_zero_iff.mpr hz
  refine ⟨v, hv, ?_⟩
  rw [Matrix.sub_mulVec, sub_eq_zero] at h
  rw [← h, Matrix.algebraMap_eq_diagonal]
  ext i
  simp [Matrix.mulVec_diagonal]

theorem exists_eigen_norm (hd : 0 < d) {P : Matrix (Fin d) (Fin d) ℂ} (hP : P.IsHermitian) :
    ∃ (z : ℂ) (v : Fin d → ℂ), v ≠ 0 ∧ P *ᵥ v = z • v ∧ ‖z‖ = ‖P‖ := by
  have : Nonempty (Fin d) := ⟨⟨0, hd⟩⟩
  obtain ⟨z, h1, h2⟩ := spectrum.exists_nnnorm_eq_spectralRadius P
  rw [IsSelfAdjoint.spectralRadius_eq_nnnorm (show IsSelfAdjoint P from hP)] at h2
  obtain ⟨v, hv, h⟩ := eigen_of_spectrum h1
  exact ⟨z, v, hv, h, congrArg NNReal.toReal (ENNReal.coe_inj.mp h2)⟩

theorem eigen_le_norm {P : Matrix (Fin d) (Fin d) ℂ} {z : ℂ} {v : Fin d → ℂ} (hv : v ≠ 0) (h : P *ᵥ v = z • v) :
    ‖z‖ ≤ ‖P‖ := by
  have h1 := Matrix.l2_opNorm_mulVec P (WithLp.toLp 2 v)
  have h2 : 0 < ‖WithLp.toLp 2 v‖ := by
    rw [norm_pos_iff]
    intro h
    exact hv (by simpa using h)
  simp only [h] at h1
  exact le_of_mul_le_mul_right (by
    calc ‖z‖ * ‖WithLp.toLp 2 v‖ = ‖WithLp.toLp 2 (z • v)‖ := by rw [WithLp.toLp_smul, norm_smul]
      _ ≤ _ := h1) h2

/-- The greatest absolute value of an eigenvalue. -/
theorem norm_isGreatest (hd : 0 < d) {P : Matrix (Fin d) (Fin d) ℂ} (hP : P.IsHermitian) :
    IsGreatest {x : ℝ | ∃ (z : ℂ) (v : Fin d → ℂ), v ≠ 0 ∧ P *ᵥ v = z • v ∧ x = ‖z‖} ‖P‖ := by
  constructor
  · obtain ⟨z, v, h1, h2, h3⟩ := exists_eigen_norm hd hP
    exact ⟨z, v, h1, h2, h3.symm⟩
  · rintro x ⟨z, v, h1, h2, rfl⟩
    exact eigen_le_norm h1 h2

/-- The greatest singular value. -/
theorem norm_isGreatest_singular (hd : 0 < d) (M : Matrix (Fin d) (Fin d) ℂ) :
    IsGreatest {s : ℝ | 0 ≤ s ∧ ∃ v : Fin d → ℂ, v ≠ 0 ∧ (Mᴴ * M) *ᵥ v = ((s ^ 2 : ℝ) : ℂ) • v} ‖M‖ := by
  have hP : (Mᴴ * M).IsHermitian := isHermitian_conjTranspose_mul_self M
  constructor
  · obtain ⟨z, v, h1, h2, h3⟩ := exists_eigen_norm hd hP
    refine ⟨norm_nonneg _, v, h1, ?_⟩
    rw [h2]
    congr 1
    rw [l2_opNorm_conjTranspose_mul_self, ← sq] at h3
    have h4 : star (M *ᵥ v) ⬝ᵥ (M *ᵥ v) = z * (star v ⬝ᵥ v) := by
      rw [star_mulVec, ← dotProduct_mulVec, mulVec_mulVec, h2, dotProduct_smul, smul_eq_mul]
    have h5 : 0 < star v ⬝ᵥ v := dotProduct_star_self_pos_iff.mpr h1
    have h6 : 0 ≤ star (M *ᵥ v) ⬝ᵥ (M *ᵥ v) := dotProduct_star_self_nonneg _
    rw [h4] at h6
    have h7 : 0 ≤ z := by
      generalize star v ⬝ᵥ v = c at h5 h6
      obtain ⟨h5, h5'⟩ := Complex.lt_def.mp h5
      obtain ⟨h6, h6'⟩ := Complex.le_def.mp h6
      simp only [Complex.zero_re, Complex.zero_im, Complex.mul_re, Complex.mul_im] at h5 h5' h6 h6'
      rw [← h5'] at h6 h6'
      refine Complex.le_def.mpr ⟨?_, ?_⟩
      · simp only [Complex.zero_re]
        by_contra hlt
        push Not at hlt
        nlinarith [mul_neg_of_neg_of_pos hlt h5]
      · simp only [Complex.zero_im]
        have : z.im * c.re = 0 := by linarith
        rcases mul_eq_zero.mp this with h | h
        · exact h.symm
        · exact absurd h h5.ne'
    rw [← h3]
    exact (Complex.norm_of_nonneg' h7).symm
  · rintro s ⟨hs, v, h1, h2⟩
    have := eigen_le_norm h1 h2
    rw [l2_opNorm_conjTranspose_mul_self, ← sq, Complex.norm_real, Real.norm_eq_abs, abs_of_nonneg (sq_nonneg s)] at this
    exact abs_le_of_sq_le_sq' this (norm_nonneg _) |>.2

end Stoq
