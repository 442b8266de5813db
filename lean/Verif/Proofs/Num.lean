import Mathlib.LinearAlgebra.Matrix.Kronecker
import Verif.Spec.Basic
import Verif.Proofs.Py

/-! Arrays versus Mathlib matrices. -/

namespace Stoq

open Matrix

namespace Arr

variable {a b : Arr} {d n m : ℕ}

theorem toMatrix_matmul (h : a.cols = d) : (a.matmul b).toMatrix d = a.toMatrix d * b.toMatrix d := by
  subst h
  ext i j
  simp [toMatrix, matmul, Matrix.mul_apply, Finset.sum_range]

theorem toMatrix_ct : (a.ct).toMatrix d = (a.toMatrix d)ᴴ := by
  ext i j; simp [toMatrix, ct, Matrix.conjTranspose_apply]

theorem toMatrix_transpose : (a.transpose).toMatrix d = (a.toMatrix d)ᵀ := by
  ext i j; simp [toMatrix, transpose]

theorem toMatrix_smul (c : ℂ) : (a.smul c).toMatrix d = c • a.toMatrix d := by
  ext i j; simp [toMatrix, smul]

theorem toMatrix_identity : (identity n).toMatrix d = 1 := by
  ext i j; simp [toMatrix, identity, Matrix.one_apply, Fin.ext_iff]

theorem trace_eq (h : a.rows = d) : a.trace = (a.toMatrix d).trace := by
  subst h; simp [Arr.trace, Matrix.trace, toMatrix, Finset.sum_range]

theorem det_eq (h : a.rows = d) : a.det = (a.toMatrix d).det := by subst h; rfl

theorem clean_zero : a.clean 0 = a := by
  cases a
  have h : ∀ x : ℝ, ¬ |x| < 0 := fun x => not_lt.mpr (abs_nonneg x)
  simp [clean, cleanR, h]

@[simp] theorem smul_one : a.smul 1 = a := by cases a; simp [smul]

/-- Two arrays that agree on the index range are `allclose`. -/
theorem allclose_of_eq (hr : a.rows = d) (hc : a.cols = d) (h : a.toMatrix d = b.toMatrix d) :
    allclose a b := by
  intro i hi j hj
  have := congrFun (congrFun h ⟨i, hr ▸ hi⟩) ⟨j, hc ▸ hj⟩
  simp only [toMatrix] at this
  simp only [isclose, this, sub_self, norm_zero]
  positivity

/-- The Kronecker product of arrays is Mathlib's, under the usual index pairing. -/
theorem toMatrix_kron (hbr : b.rows = n) (hbc : b.cols = n) :
    (a.kron b).toMatrix (m * n) =
      (kroneckerMap (· * ·) (a.toMatrix m) (b.toMatrix n)).submatrix
        finProdFinEquiv.symm finProdFinEquiv.symm := by
  ext i j
  simp [toMatrix, kron, hbr, hbc, finProdFinEquiv, Fin.divNat, Fin.modNat]

end Arr

theorem det_kron_one {m n : ℕ} (A : Matrix (Fin m) (Fin m) ℂ) (B : Matrix (Fin n) (Fin n) ℂ) :
    ((kroneckerMap (· * ·) A B).submatrix finProdFinEquiv.symm finProdFinEquiv.symm :
      Matrix (Fin (m * n)) (Fin (m * n)) ℂ).det = A.det ^ n * B.det ^ m := by
  rw [Matrix.det_submatrix_equiv_self]
  simpa using Matrix.det_kronecker A B

/-- Kronecker products of unitary matrices are unitary. -/
theorem kron_mem_unitary {m n : ℕ} {A : Matrix (Fin m) (Fin m) ℂ} {B : Matrix (Fin n) (Fin n) ℂ}
    (hA : A ∈ unitaryGroup (Fin m) ℂ) (hB : B ∈ unitaryGroup (Fin n) ℂ) :
    ((kroneckerMap (· * ·) A B).submatrix finProdFinEquiv.symm finProdFinEquiv.symm :
      Matrix (Fin (m * n)) (Fin (m * n)) ℂ) ∈ unitaryGroup (Fin (m * n)) ℂ := by
  rw [mem_unitaryGroup_iff] at *
  rw [star_eq_conjTranspose] at *
  rw [conjTranspose_submatrix, submatrix_mul_equiv]
  have : (kroneckerMap (· * ·) A B)ᴴ = kroneckerMap (· * ·) Aᴴ Bᴴ := by
    simpa using Matrix.conjTranspose_kronecker A B
  rw [this]
  have h2 : kroneckerMap (· * ·) A B * kroneckerMap (· * ·) Aᴴ Bᴴ =
      kroneckerMap (· * ·) (A * Aᴴ) (B * Bᴴ) := (Matrix.mul_kronecker_mul A Aᴴ B Bᴴ).symm
  rw [h2, hA, hB]
  have h3 : kroneckerMap (fun x1 x2 : ℂ => x1 * x2) (1 : Matrix (Fin m) (Fin m) ℂ) (1 : Matrix (Fin n) (Fin n) ℂ) = 1 :=
    Matrix.one_kronecker_one
  rw [h3]
  simp

end Stoq
