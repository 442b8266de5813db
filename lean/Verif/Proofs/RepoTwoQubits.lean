import Verif.Proofs.Sectors
import Verif.Proofs.RepoTrotterTest

/-! # The test of a Hamiltonian of two qubits: the Hamiltonian, the steps and the gates -/

namespace Stoq

open Matrix Tests MeasureTheory

open scoped Matrix.Norms.L2Operator

namespace Tests

/-! ## The Hamiltonian -/

/-- The terms `2 X⊗X`, `1.5 Y⊗1` and `1.1 1⊗Y`. -/
noncomputable def xyyTerms : List (Matrix (Fin (2 ^ 2)) (Fin (2 ^ 2)) ℂ) :=
  [((2 : ℝ) : ℂ) • sectors (Gate.X, Gate.X), ((1.5 : ℝ) : ℂ) • sectors (Gate.Y, Gate.Y), ((1.1 : ℝ) : ℂ) • sectors (Gate.Y, -Gate.Y)]

theorem xx_is : ((Arr.ofRows [[0, 1], [1, 0]]).kron (Arr.ofRows [[0, 1], [1, 0]])).Is (sectors (Gate.X, Gate.X)) := by
  refine ⟨rfl, rfl, ?_⟩
  rw [sectors.xx]
  ext i j
  fin_cases i <;> fin_cases j <;> simp [Arr.toMatrix, Arr.kron, Arr.ofRows]

theorem y1_is : ((Arr.ofRows [[0, -Complex.I], [Complex.I, 0]]).kron (Arr.identity 2)).Is (sectors (Gate.Y, Gate.Y)) := by
  refine ⟨rfl, rfl, ?_⟩
  rw [sectors.y1]
  ext i j
  fin_cases i <;> fin_cases j <;> simp [Arr.toMatrix, Arr.kron, Arr.ofRows, Arr.identity]

theorem y2_is : ((Arr.identity 2).kron (Arr.ofRows [[0, -Complex.I], [Complex.I, 0]])).Is (sectors (Gate.Y, -Gate.Y)) := by
  refine ⟨rfl, rfl, ?_⟩
  rw [sectors.y2]
  ext i j
  fin_cases i <;> fin_cases j <;> simp [Arr.toMatrix, Arr.kron, Arr.ofRows, Arr.identity]

theorem scaled4 {A B : Matrix (Fin 2) (Fin 2) ℂ} (hA : A ∈ unitaryGroup (Fin 2) ℂ) (hB : B ∈ unitaryGroup (Fin 2) ℂ)
    (cA : A.IsHermitian) (cB : B.IsHermitian) {a : ℝ} (ha : a ≠ 0) :
    ((a : ℂ) • sectors (A, B)).IsHermitian ∧ (a : ℂ) • sectors (A, B) ≠ 0 ∧ maxAbsEigenvalue ((a : ℂ) • sectors (A, B)) = |a| := by
  have h0 : (sectors (A, B))ᴴ = sectors (A, B) := by
    rw [← star_eq_conjTranspose, ← map_star, Prod.star_def, star_eq_conjTranspose, star_eq_conjTranspose, cA.eq, cB.eq]
  have h1 : ((a : ℂ) • sectors (A, B)).IsHermitian := by
    unfold Matrix.IsHermitian
    rw [conjTranspose_smul, h0]
    simp
  have h2 : ‖(a : ℂ) • sectors (A, B)‖ = |a| := by
    rw [norm_smul, norm_unitary (by norm_num) (sectors.unitary hA hB), mul_one, Complex.norm_real, Real.norm_eq_abs]
  refine ⟨h1, ?_, by rw [maxAbsEigenvalue_eq (by norm_num) h1, h2]⟩
  intro h
  rw [h, norm_zero] at h2
  exact ha (abs_eq_zero.mp h2.symm)

theorem negY_mem : -Gate.Y ∈ unitaryGroup (Fin 2) ℂ := by
  rw [mem_unitaryGroup_iff, star_neg, neg_mul_neg]
  exact mem_unitaryGroup_iff.mp Y_mem

theorem xyy_scaled : (((2 : ℝ) : ℂ) • sectors (Gate.X, Gate.X)).IsHermitian ∧ ((2 : ℝ) : ℂ) • sectors (Gate.X, Gate.X) ≠ 0 ∧
    maxAbsEigenvalue (((2 : ℝ) : ℂ) • sectors (Gate.X, Gate.X)) = 2 ∧
    (((1.5 : ℝ) : ℂ) • sectors (Gate.Y, Gate.Y)).IsHermitian ∧ ((1.5 : ℝ) : ℂ) • sectors (Gate.Y, Gate.Y) ≠ 0 ∧
    maxAbsEigenvalue (((1.5 : ℝ) : ℂ) • sectors (Gate.Y, Gate.Y)) = 1.5 ∧
    (((1.1 : ℝ) : ℂ) • sectors (Gate.Y, -Gate.Y)).IsHermitian ∧ ((1.1 : ℝ) : ℂ) • sectors (Gate.Y, -Gate.Y) ≠ 0 ∧
    maxAbsEigenvalue (((1.1 : ℝ) : ℂ) • sectors (Gate.Y, -Gate.Y)) = 1.1 := by
  obtain ⟨a1, a2, a3⟩ := scaled4 X_mem X_mem Gate.X_ct Gate.X_ct (a := 2) (by norm_num)
  obtain ⟨b1, b2, b3⟩ := scaled4 Y_mem Y_mem Gate.Y_ct Gate.Y_ct (a := 1.5) (by norm_num)
  obtain ⟨c1, c2, c3⟩ := scaled4 Y_mem negY_mem Gate.Y_ct (IsHermitian.neg Gate.Y_ct) (a := 1.1) (by norm_num)
  rw [abs_of_pos (by norm_num)] at a3 b3 c3
  exact ⟨a1, a2, a3, b1, b2, b3, c1, c2, c3⟩

theorem xyy_of : ∃ H, twoQubitHamiltonian = .ok H ∧ H.dimension = 2 ^ 2 ∧ H.Of xyyTerms := by
  obtain ⟨a1, a2, -, b1, b2, -, c1, c2, -⟩ := xyy_scaled
  have ha := xx_is.smul ((2 : ℝ) : ℂ)
  have hb := y1_is.smul ((1.5 : ℝ) : ℂ)
  have hc := y2_is.smul ((1.1 : ℝ) : ℂ)
  obtain ⟨ta, hta⟩ := C45_accepts ha a1 a2
  obtain ⟨tb, htb⟩ := C45_accepts hb b1 b2
  obtain ⟨tc, htc⟩ := C45_accepts hc c1 c2
  have da := (C45_normalisation ha hta).1
  have db := (C45_normalisation hb htb).1
  have dc := (C45_normalisation hc htc).1
  have hn : Hamiltonian.new [ta, tb, tc] = .ok ⟨ta.dimension, [ta, tb, tc]⟩ := by
    unfold Hamiltonian.new
    dsimp only
    rw [assertE_of (by simp [da, db, dc])]
    rfl
  refine ⟨⟨ta.dimension, [ta, tb, tc]⟩, ?_, da, _, _, .cons ⟨ha, a1⟩ (.cons ⟨hb, b1⟩ (.cons ⟨hc, c1⟩ .nil)),
    .cons hta (.cons htb (.cons htc .nil)), hn⟩
  unfold twoQubitHamiltonian
  dsimp only
  push_cast at hta htb htc
  rw [hta, ok_bind, htb, ok_bind, htc, ok_bind, hn]

theorem xyy_strength : (xyyTerms.map maxAbsEigenvalue).sum = 4.6 := by
  obtain ⟨-, -, a3, -, -, b3, -, -, c3⟩ := xyy_scaled
  unfold xyyTerms
  rw [List.map_cons, List.map_cons, List.map_cons, List.map_nil, List.sum_cons, List.sum_cons, List.sum_cons, List.sum_nil, add_zero]
  refine (congrArg₂ _ a3 (congrArg₂ _ b3 c3)).trans ?_
  norm_num

end Tests

end Stoq
