import Verif.Spec.Hamiltonian
import Verif.Proofs.Gates
import Mathlib.Analysis.Matrix.Spectrum
import Mathlib.Analysis.SpecialFunctions.Exponential

/-! # Lemmas about time evolution -/

namespace Stoq

open Matrix Complex

variable {d : ℕ}

theorem evolution_zero (H : Matrix (Fin d) (Fin d) ℂ) : evolution H 0 = 1 := by simp [evolution]

theorem evolution_add (H : Matrix (Fin d) (Fin d) ℂ) (s t : ℝ) :
    evolution H (s + t) = evolution H s * evolution H t := by
  unfold evolution
  rw [← Matrix.exp_add_of_commute _ _ (((Commute.refl _).smul_left _).smul_right _), ← add_smul]
  congr 2
  push_cast; ring

theorem evolution_ct {H : Matrix (Fin d) (Fin d) ℂ} (hH : H.IsHermitian) (t : ℝ) :
    (evolution H t)ᴴ = evolution H (-t) := by
  unfold evolution
  rw [← Matrix.exp_conjTranspose, conjTranspose_smul, hH.eq]
  congr 2
  simp

theorem evolution_unitary {H : Matrix (Fin d) (Fin d) ℂ} (hH : H.IsHermitian) (t : ℝ) :
    evolution H t ∈ unitaryGroup (Fin d) ℂ := by
  rw [mem_unitaryGroup_iff, star_eq_conjTranspose, evolution_ct hH, ← evolution_add, add_neg_cancel,
    evolution_zero]

/-- The determinant of an evolution is the exponential of the trace. -/
theorem evolution_det {H : Matrix (Fin d) (Fin d) ℂ} (hH : H.IsHermitian) (t : ℝ) :
    (evolution H t).det = Complex.exp (I * t * H.trace) := by
  have hU := hH.eigenvectorUnitary.2
  set U : Matrix (Fin d) (Fin d) ℂ := hH.eigenvectorUnitary.1 with hUdef
  have h1 : U * star U = 1 := mem_unitaryGroup_iff.mp hU
  have hunit : IsUnit U := IsUnit.of_mul_eq_one _ h1
  have hinv : U⁻¹ = star U := Matrix.inv_eq_right_inv h1
  have hdiag : (I * t) • H = U * diagonal (fun i => (I * t) * (hH.eigenvalues i : ℂ)) * U⁻¹ := by
    have := hH.spectral_theorem
    rw [_root_.Unitary.conjStarAlgAut_apply] at this
    rw [hinv]
    conv_lhs => rw [this]
    rw [← Matrix.smul_mul, ← Matrix.mul_smul, ← diagonal_smul]
    rfl
  unfold evolution
  rw [hdiag, Matrix.exp_conj _ _ hunit, det_mul, det_mul, mul_right_comm, ← det_mul,
    Matrix.mul_nonsing_inv _ ((Matrix.isUnit_iff_isUnit_det _).mp hunit), det_one, one_mul, Matrix.exp_diagonal,
    det_diagonal, hH.trace_eq_sum_eigenvalues, Finset.mul_sum, Complex.exp_sum]
  refine Finset.prod_congr rfl fun i _ => ?_
  rw [Pi.coe_exp, Complex.exp_eq_exp_ℂ]
  rfl

end Stoq
