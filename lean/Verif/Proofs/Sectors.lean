import Verif.Proofs.Quaternion
import Verif.Proofs.DriftEntry
import Mathlib.Analysis.CStarAlgebra.Classes

/-!
# Matrices of two qubits that commute with `Y ⊗ Y`

Such a matrix is given by two matrices of one qubit, one for each eigenvalue of `Y ⊗ Y`.  In the basis used here
`X ⊗ X` is `X` for both eigenvalues, `Y ⊗ 1` is `Y` for both, and `1 ⊗ Y` is `Y` and `-Y`.
-/

namespace Stoq

open Matrix Complex

open scoped Matrix.Norms.L2Operator

/-- The basis, in columns: two eigenvectors of `Y ⊗ Y` for the eigenvalue 1 and two for -1. -/
noncomputable def sectorBasis : Matrix (Fin 4) (Fin 4) ℂ :=
  (1 / 2 : ℂ) • !![1, -1, 1, 1; 1, 1, 1, -1; 1, 1, -1, 1; -1, 1, 1, 1]

theorem sectorBasis_ct : sectorBasisᴴ = (1 / 2 : ℂ) • !![1, 1, 1, -1; -1, 1, 1, 1; 1, 1, -1, 1; 1, -1, 1, 1] := by
  ext i j
  fin_cases i <;> fin_cases j <;> simp [sectorBasis]

theorem sectorBasis_left : sectorBasisᴴ * sectorBasis = 1 := by
  rw [sectorBasis_ct]
  ext i j
  fin_cases i <;> fin_cases j <;> simp [sectorBasis, Matrix.mul_apply, Fin.sum_univ_four] <;> norm_num

theorem sectorBasis_right : sectorBasis * sectorBasisᴴ = 1 := by
  rw [sectorBasis_ct]
  ext i j
  fin_cases i <;> fin_cases j <;> simp [sectorBasis, Matrix.mul_apply, Fin.sum_univ_four] <;> norm_num

/-- The matrix given by two matrices of one qubit. -/
noncomputable def sectors : (Matrix (Fin 2) (Fin 2) ℂ × Matrix (Fin 2) (Fin 2) ℂ) →⋆ₐ[ℂ] Matrix (Fin 4) (Fin 4) ℂ where
  toFun q := sectorBasis * (fromBlocks q.1 0 0 q.2).submatrix (finSumFinEquiv (m := 2) (n := 2)).symm finSumFinEquiv.symm * sectorBasisᴴ
  map_one' := by
    simp [sectorBasis_right]
  map_mul' p q := by
    have h : ∀ a b c d : Matrix (Fin 4) (Fin 4) ℂ, sectorBasis * a * sectorBasisᴴ * (sectorBasis * b * sectorBasisᴴ) =
        sectorBasis * (a * b) * sectorBasisᴴ := fun a b _ _ => by
      calc _ = sectorBasis * a * (sectorBasisᴴ * sectorBasis) * b * sectorBasisᴴ := by simp only [Matrix.mul_assoc]
        _ = _ := by rw [sectorBasis_left]; simp only [Matrix.mul_assoc, Matrix.one_mul]
    rw [h _ _ 0 0, submatrix_mul_equiv, fromBlocks_multiply]
    simp
  map_zero' := by simp
  map_add' p q := by
    have : fromBlocks (p + q).1 0 0 (p + q).2 = fromBlocks p.1 0 0 p.2 + fromBlocks q.1 0 0 q.2 := by
      rw [fromBlocks_add]; simp
    rw [← Matrix.add_mul, ← Matrix.mul_add, this]
    rfl
  commutes' r := by
    have : fromBlocks ((algebraMap ℂ (Matrix (Fin 2) (Fin 2) ℂ × Matrix (Fin 2) (Fin 2) ℂ)) r).1 0 0
        ((algebraMap ℂ (Matrix (Fin 2) (Fin 2) ℂ × Matrix (Fin 2) (Fin 2) ℂ)) r).2 = r • (1 : Matrix (Fin 2 ⊕ Fin 2) (Fin 2 ⊕ Fin 2) ℂ) := by
      rw [← fromBlocks_one, fromBlocks_smul]
      simp [Algebra.algebraMap_eq_smul_one]
    rw [this, show ∀ (M : Matrix (Fin 2 ⊕ Fin 2) (Fin 2 ⊕ Fin 2) ℂ), (r • M).submatrix (finSumFinEquiv (m := 2) (n := 2)).symm
      finSumFinEquiv.symm = r • M.submatrix finSumFinEquiv.symm finSumFinEquiv.symm from fun _ => rfl, submatrix_one_equiv, Matrix.mul_smul, Matrix.mul_one, Matrix.smul_mul, sectorBasis_right,
      Algebra.algebraMap_eq_smul_one]
  map_star' q := by
    rw [star_eq_conjTranspose, conjTranspose_mul, conjTranspose_mul, conjTranspose_conjTranspose, conjTranspose_submatrix,
      fromBlocks_conjTranspose, Matrix.mul_assoc]
    simp [star_eq_conjTranspose]

namespace sectors

theorem apply (A B : Matrix (Fin 2) (Fin 2) ℂ) : sectors (A, B) =
    sectorBasis * !![A 0 0, A 0 1, 0, 0; A 1 0, A 1 1, 0, 0; 0, 0, B 0 0, B 0 1; 0, 0, B 1 0, B 1 1] * sectorBasisᴴ := by
  change sectorBasis * _ * sectorBasisᴴ = _
  congr 2
  ext i j
  fin_cases i <;> fin_cases j <;> rfl

theorem norm_le {A B : Matrix (Fin 2) (Fin 2) ℂ} {ε : ℝ} (hA : ‖A‖ ≤ ε) (hB : ‖B‖ ≤ ε) : ‖sectors (A, B)‖ ≤ ε :=
  (NonUnitalStarAlgHom.norm_apply_le sectors (A, B)).trans (max_le hA hB)

theorem trace (A B : Matrix (Fin 2) (Fin 2) ℂ) : (sectors (A, B)).trace = A.trace + B.trace := by
  rw [apply, Matrix.mul_assoc, Matrix.trace_mul_comm, Matrix.mul_assoc, sectorBasis_left, Matrix.mul_one]
  simp [Matrix.trace, Fin.sum_univ_four, Fin.sum_univ_two]
  ring

theorem unitary {A B : Matrix (Fin 2) (Fin 2) ℂ} (hA : A ∈ unitaryGroup (Fin 2) ℂ) (hB : B ∈ unitaryGroup (Fin 2) ℂ) :
    sectors (A, B) ∈ unitaryGroup (Fin 4) ℂ := by
  rw [mem_unitaryGroup_iff, ← map_star, ← map_mul, Prod.star_def, Prod.mk_mul_mk, mem_unitaryGroup_iff.mp hA, mem_unitaryGroup_iff.mp hB]
  exact map_one sectors

theorem mul (A B A' B' : Matrix (Fin 2) (Fin 2) ℂ) : sectors (A, B) * sectors (A', B') = sectors (A * A', B * B') := by
  rw [← map_mul]; rfl

theorem evolution (A B : Matrix (Fin 2) (Fin 2) ℂ) (t : ℝ) :
    Stoq.evolution (sectors (A, B)) t = sectors (Stoq.evolution A t, Stoq.evolution B t) := by
  unfold Stoq.evolution
  have hc : Continuous sectors := sectors.toAlgHom.toLinearMap.continuous_of_finiteDimensional
  let : NormedAlgebra ℚ (Matrix (Fin 2) (Fin 2) ℂ × Matrix (Fin 2) (Fin 2) ℂ) := .restrictScalars ℚ ℂ _
  let : NormedAlgebra ℚ (Matrix (Fin 2) (Fin 2) ℂ) := .restrictScalars ℚ ℂ _
  rw [← map_smul, ← NormedSpace.map_exp sectors hc]
  congr 1
  ext1
  · exact Prod.fst_exp _
  · exact Prod.snd_exp _

theorem re_overlap (p x y z p' x' y' z' q u v w q' u' v' w' : ℝ) :
    ((sectors (quat p x y z, quat q u v w))ᴴ * sectors (quat p' x' y' z', quat q' u' v' w')).trace.re / 4 =
      (p * p' + x * x' + y * y' + z * z' + (q * q' + u * u' + v * v' + w * w')) / 2 := by
  rw [← star_eq_conjTranspose, ← map_star, Prod.star_def, mul, trace, star_eq_conjTranspose, star_eq_conjTranspose, add_re, add_div,
    ← quat.re_overlap, ← quat.re_overlap]
  ring

theorem overlap_eq (p x y z p' x' y' z' q u v w q' u' v' w' : ℝ) :
    overlap (sectors (quat p x y z, quat q u v w)) (sectors (quat p' x' y' z', quat q' u' v' w')) =
      |p * p' + x * x' + y * y' + z * z' + (q * q' + u * u' + v * v' + w * w')| / 2 := by
  unfold overlap
  rw [← star_eq_conjTranspose, ← map_star, Prod.star_def, mul, trace, star_eq_conjTranspose, star_eq_conjTranspose, quat.ct, quat.ct,
    quat.mul, quat.mul, quat.trace, quat.trace, ← mul_add, ← ofReal_add, norm_mul, norm_real, Real.norm_eq_abs]
  norm_num
  rw [show ∀ r : ℝ, 2 * r / 4 = r / 2 by intro r; ring]

/-! ## The terms -/

theorem xx : (sectors (Gate.X, Gate.X)) = !![0, 0, 0, 1; 0, 0, 1, 0; 0, 1, 0, 0; 1, 0, 0, 0] := by
  rw [apply, sectorBasis_ct]
  ext i j
  fin_cases i <;> fin_cases j <;> simp [sectorBasis, Gate.X, Matrix.mul_apply, Fin.sum_univ_four] <;> ring

theorem y1 : (sectors (Gate.Y, Gate.Y)) = !![0, 0, -I, 0; 0, 0, 0, -I; I, 0, 0, 0; 0, I, 0, 0] := by
  rw [apply, sectorBasis_ct]
  ext i j
  fin_cases i <;> fin_cases j <;> simp [sectorBasis, Gate.Y, Matrix.mul_apply, Fin.sum_univ_four] <;> ring

theorem y2 : (sectors (Gate.Y, -Gate.Y)) = !![0, -I, 0, 0; I, 0, 0, 0; 0, 0, 0, -I; 0, 0, I, 0] := by
  rw [apply, sectorBasis_ct]
  ext i j
  fin_cases i <;> fin_cases j <;> simp [sectorBasis, Gate.Y, Matrix.mul_apply, Fin.sum_univ_four] <;> ring

end sectors

end Stoq
