import Verif.Spec.Gates
import Verif.Spec.Basic
import Verif.Model.Definitions
import Verif.Proofs.Unitary
import Mathlib.Tactic.FinCases
import Mathlib.Tactic.LinearCombination

/-! # Lemmas about the gate definitions -/

namespace Stoq

open Matrix Complex

namespace Gate

variable {ι : Type*} [DecidableEq ι] [Fintype ι] {P : Matrix ι ι ℂ}

theorem rot_add (hP : P * P = 1) (a b : ℝ) : rot P a * rot P b = rot P (a + b) := by
  unfold rot
  have h1 : (Real.cos ((a + b) / 2) : ℂ) =
      Real.cos (a / 2) * Real.cos (b / 2) - Real.sin (a / 2) * Real.sin (b / 2) := by
    rw [add_div, Real.cos_add]; push_cast; ring
  have h2 : (Real.sin ((a + b) / 2) : ℂ) =
      Real.sin (a / 2) * Real.cos (b / 2) + Real.cos (a / 2) * Real.sin (b / 2) := by
    rw [add_div, Real.sin_add]; push_cast; ring
  rw [h1, h2]
  simp only [sub_mul, mul_sub, smul_mul_smul_comm, hP, mul_one, one_mul]
  have hI : (I * (Real.sin (a / 2) : ℂ)) * (I * (Real.sin (b / 2) : ℂ)) =
      -((Real.sin (a / 2) : ℂ) * Real.sin (b / 2)) := by
    linear_combination (Real.sin (a / 2) : ℂ) * Real.sin (b / 2) * I_mul_I
  rw [hI]
  module

omit [Fintype ι] in
theorem rot_ct (hP : Pᴴ = P) (a : ℝ) : (rot P a)ᴴ = rot P (-a) := by
  unfold rot
  rw [conjTranspose_sub, conjTranspose_smul, conjTranspose_smul, hP, conjTranspose_one, neg_div,
    Real.cos_neg, Real.sin_neg]
  simp only [Complex.star_def, map_mul, conj_I, conj_ofReal]
  push_cast
  module

omit [Fintype ι] in
@[simp] theorem rot_zero : rot P 0 = 1 := by simp [rot]

theorem rot_unitary (hP : P * P = 1) (hH : Pᴴ = P) (a : ℝ) : rot P a ∈ unitaryGroup ι ℂ := by
  rw [mem_unitaryGroup_iff, star_eq_conjTranspose, rot_ct hH, rot_add hP, add_neg_cancel, rot_zero]

theorem X_sq : X * X = 1 := by ext i j; fin_cases i <;> fin_cases j <;> simp [X, Matrix.mul_apply]
theorem Y_sq : Y * Y = 1 := by ext i j; fin_cases i <;> fin_cases j <;> simp [Y, Matrix.mul_apply]
theorem Z_sq : Z * Z = 1 := by ext i j; fin_cases i <;> fin_cases j <;> simp [Z, Matrix.mul_apply]
theorem X_ct : Xᴴ = X := by ext i j; fin_cases i <;> fin_cases j <;> simp [X]
theorem Y_ct : Yᴴ = Y := by ext i j; fin_cases i <;> fin_cases j <;> simp [Y]
theorem Z_ct : Zᴴ = Z := by ext i j; fin_cases i <;> fin_cases j <;> simp [Z]

theorem XX_eq : XX = !![0, 0, 0, 1; 0, 0, 1, 0; 0, 1, 0, 0; 1, 0, 0, 0] := by
  ext i j; fin_cases i <;> fin_cases j <;> simp [XX]

theorem XX_sq : XX * XX = 1 := by
  rw [XX_eq]
  ext i j; fin_cases i <;> fin_cases j <;> simp [Matrix.mul_apply, Fin.sum_univ_four]
theorem XX_ct : XXᴴ = XX := by
  rw [XX_eq]
  ext i j; fin_cases i <;> fin_cases j <;> simp

/-- The axis in the x-y plane at the angle `φ`. -/
theorem axis_sq (φ : ℝ) : ((Real.cos φ : ℂ) • X + (Real.sin φ : ℂ) • Y) *
    ((Real.cos φ : ℂ) • X + (Real.sin φ : ℂ) • Y) = 1 := by
  have h : (Real.cos φ : ℂ) ^ 2 + (Real.sin φ : ℂ) ^ 2 = 1 := by
    have := Real.cos_sq_add_sin_sq φ; exact_mod_cast this
  ext i j; fin_cases i <;> fin_cases j <;> simp [X, Y, Matrix.mul_apply] <;>
    push_cast at h <;> linear_combination h - (Complex.sin φ) ^ 2 * I_sq

theorem axis_ct (φ : ℝ) : ((Real.cos φ : ℂ) • X + (Real.sin φ : ℂ) • Y)ᴴ =
    (Real.cos φ : ℂ) • X + (Real.sin φ : ℂ) • Y := by
  rw [conjTranspose_add, conjTranspose_smul, conjTranspose_smul, X_ct, Y_ct]
  simp only [Complex.star_def, conj_ofReal]

/-- Rotations generated by a traceless Hermitian involution on one qubit have determinant one. -/
theorem rot_det_two {P : Matrix (Fin 2) (Fin 2) ℂ} (hd : P.det = -1) (ht : P.trace = 0)
    (θ : ℝ) : (rot P θ).det = 1 := by
  rw [det_fin_two] at hd ⊢
  rw [trace_fin_two] at ht
  have h : (Real.cos (θ / 2) : ℂ) ^ 2 + (Real.sin (θ / 2) : ℂ) ^ 2 = 1 := by
    have := Real.cos_sq_add_sin_sq (θ / 2); exact_mod_cast this
  simp only [rot, Matrix.sub_apply, Matrix.smul_apply, one_apply, smul_eq_mul]
  simp only [Fin.isValue, if_true, zero_ne_one, one_ne_zero, if_false]
  linear_combination h + (I ^ 2 * (Real.sin (θ / 2) : ℂ) ^ 2) * hd
    - (Real.cos (θ / 2) : ℂ) * I * (Real.sin (θ / 2) : ℂ) * ht - (Real.sin (θ / 2) : ℂ) ^ 2 * I_sq

theorem rot_XX_det (θ : ℝ) : (rot XX θ).det = 1 := by
  have h : (Real.cos (θ / 2) : ℂ) ^ 2 + (Real.sin (θ / 2) : ℂ) ^ 2 = 1 := by
    have := Real.cos_sq_add_sin_sq (θ / 2); exact_mod_cast this
  generalize hc : (Real.cos (θ / 2) : ℂ) = c at h
  generalize hs : (Real.sin (θ / 2) : ℂ) = s at h
  have : rot XX θ = !![c, 0, 0, -(I * s); 0, c, -(I * s), 0; 0, -(I * s), c, 0; -(I * s), 0, 0, c] := by
    unfold rot
    rw [XX_eq, hc, hs]
    ext i j; fin_cases i <;> fin_cases j <;> simp
  rw [this]
  simp [det_succ_row_zero, Fin.sum_univ_succ, Fin.succAbove]
  have hI : I ^ 2 = -1 := I_sq
  have hI4 : I ^ 4 = 1 := I_pow_four
  ring_nf
  rw [hI, hI4]
  linear_combination (c ^ 2 + s ^ 2 + 1) * h

theorem rot_su_two {P : Matrix (Fin 2) (Fin 2) ℂ} (hP : P * P = 1) (hH : Pᴴ = P) (hd : P.det = -1)
    (ht : P.trace = 0) (θ : ℝ) : rot P θ ∈ specialUnitaryGroup (Fin 2) ℂ :=
  mem_specialUnitaryGroup_iff.mpr ⟨rot_unitary hP hH θ, rot_det_two hd ht θ⟩

theorem rot_X_su (θ : ℝ) : rot X θ ∈ specialUnitaryGroup (Fin 2) ℂ :=
  rot_su_two X_sq X_ct (by simp [X, det_fin_two]) (by simp [X, trace_fin_two]) θ
theorem rot_Y_su (θ : ℝ) : rot Y θ ∈ specialUnitaryGroup (Fin 2) ℂ :=
  rot_su_two Y_sq Y_ct (by simp [Y, det_fin_two]) (by simp [Y, trace_fin_two]) θ
theorem rot_Z_su (θ : ℝ) : rot Z θ ∈ specialUnitaryGroup (Fin 2) ℂ :=
  rot_su_two Z_sq Z_ct (by simp [Z, det_fin_two]) (by simp [Z, trace_fin_two]) θ
theorem rot_axis_su (θ φ : ℝ) : rot ((Real.cos φ : ℂ) • X + (Real.sin φ : ℂ) • Y) θ ∈
    specialUnitaryGroup (Fin 2) ℂ := by
  refine rot_su_two (axis_sq φ) (axis_ct φ) ?_ (by simp [X, Y, trace_fin_two]) θ
  have h : (Real.cos φ : ℂ) ^ 2 + (Real.sin φ : ℂ) ^ 2 = 1 := by
    have := Real.cos_sq_add_sin_sq φ; exact_mod_cast this
  simp [X, Y, det_fin_two]
  push_cast at h
  linear_combination h - (Complex.sin φ) ^ 2 * I_sq
theorem rot_XX_su (θ : ℝ) : rot XX θ ∈ specialUnitaryGroup (Fin 4) ℂ :=
  mem_specialUnitaryGroup_iff.mpr ⟨rot_unitary XX_sq XX_ct θ, rot_XX_det θ⟩

/-- The matrix of an involution of the basis states is unitary. -/
theorem perm_unitary {d : ℕ} {σ : Fin d → Fin d} (hσ : ∀ x, σ (σ x) = x) :
    (Matrix.of fun r c => if r = σ c then (1 : ℂ) else 0) ∈ unitaryGroup (Fin d) ℂ := by
  rw [mem_unitaryGroup_iff, star_eq_conjTranspose]
  ext i j
  rw [Matrix.mul_apply, Finset.sum_eq_single (σ i)]
  · simp [hσ, Matrix.one_apply, eq_comm]
  · intro k _ hk
    have : ¬ i = σ k := fun h => hk (by rw [h, hσ])
    simp [this]
  · simp

theorem perm_mul {d : ℕ} {σ : Fin d → Fin d} (hσ : ∀ x, σ (σ x) = x) (M : Matrix (Fin d) (Fin d) ℂ) :
    (Matrix.of fun r c => if r = σ c then (1 : ℂ) else 0) * M = Matrix.of fun r c => M (σ r) c := by
  ext i j
  rw [Matrix.mul_apply, Finset.sum_eq_single (σ i)]
  · simp [hσ]
  · intro k _ hk
    have : ¬ i = σ k := fun h => hk (by rw [h, hσ])
    simp [this]
  · simp

end Gate

/-- Build a unitary from a special unitary matrix literal. -/
theorem Unitary.new_su_holds {d : ℕ} (hd : 0 < d) {a : Arr} {M : Matrix (Fin d) (Fin d) ℂ} (ha : a.Is M)
    (hM : M ∈ specialUnitaryGroup (Fin d) ℂ) (name : Option String) (pd : Option ParamDict) :
    ∃ u, Unitary.new 0 d (some a) name pd = .ok u ∧ u.Holds M ∧ u.Exact d ∧
      u.operationName = name.getD "U" ∧ u.parameterDict = pd.getD [] := by
  obtain ⟨hr, hc, rfl⟩ := ha
  exact ⟨_, Unitary.new_su hd hr hc hM name pd false [], ⟨hr, hc, rfl⟩, ⟨hd, hr, hc, hM⟩, rfl, rfl⟩

/-- Build a unitary from a unitary matrix literal. -/
theorem Unitary.new_phase {d : ℕ} (hd : 0 < d) {a : Arr} (hr : a.rows = d) (hc : a.cols = d)
    (hU : a.toMatrix d ∈ unitaryGroup (Fin d) ℂ) (name : Option String) (pd : Option ParamDict) :
    ∃ u, Unitary.new 0 d (some a) name pd = .ok u ∧ u.Exact d ∧
      SamePhase (u.matrix.toMatrix d) (a.toMatrix d) ∧ u.operationName = name.getD "U" := by
  obtain ⟨c, h1, -, -, h3⟩ := Unitary.new_exact hd hr hc hU name pd false []
  have hdet := Unitary.new_det (t := 0) h3
  refine ⟨_, h3, ⟨hd, hr, hc, mem_specialUnitaryGroup_iff.mpr ⟨?_, hdet⟩⟩, ⟨c, h1, Arr.toMatrix_smul c⟩, rfl⟩
  rw [Arr.toMatrix_smul, mem_unitaryGroup_iff, star_eq_conjTranspose, conjTranspose_smul, smul_mul_smul_comm]
  have hM' : a.toMatrix d * (a.toMatrix d)ᴴ = 1 := mem_unitaryGroup_iff.mp hU
  have : c * star c = 1 := by
    rw [Complex.star_def, Complex.mul_conj, Complex.normSq_eq_norm_sq, h1]; simp
  rw [hM', this, one_smul]

namespace UnitaryDefinitions

theorem rxMatrix_is (θ : ℝ) : (rxMatrix θ).Is (Gate.rot Gate.X θ) := by
  refine ⟨rfl, rfl, ?_⟩
  ext i j; fin_cases i <;> fin_cases j <;>
    simp [Arr.toMatrix, rxMatrix, Arr.ofRows, Gate.rot, Gate.X]

theorem ryMatrix_is (θ : ℝ) : (ryMatrix θ).Is (Gate.rot Gate.Y θ) := by
  refine ⟨rfl, rfl, ?_⟩
  ext i j; fin_cases i <;> fin_cases j <;>
    simp [Arr.toMatrix, ryMatrix, Arr.ofRows, Gate.rot, Gate.Y]
  · linear_combination -(Complex.sin (θ / 2)) * I_sq
  · linear_combination (Complex.sin (θ / 2)) * I_sq

theorem exp_half (θ : ℝ) : exp (I * θ / 2) = Real.cos (θ / 2) + Real.sin (θ / 2) * I := by
  rw [show I * (θ : ℂ) / 2 = ((θ / 2 : ℝ) : ℂ) * I by push_cast; ring, exp_mul_I]
  push_cast; rfl

theorem exp_neg_half (θ : ℝ) : exp (-I * θ / 2) = Real.cos (θ / 2) - Real.sin (θ / 2) * I := by
  rw [show -I * (θ : ℂ) / 2 = ((-(θ / 2) : ℝ) : ℂ) * I by push_cast; ring, exp_mul_I]
  push_cast; rw [Complex.cos_neg, Complex.sin_neg]; ring

theorem rzMatrix_is (θ : ℝ) : (rzMatrix θ).Is (Gate.rot Gate.Z θ) := by
  refine ⟨rfl, rfl, ?_⟩
  ext i j; fin_cases i <;> fin_cases j
  · have := exp_neg_half θ
    simp [Arr.toMatrix, rzMatrix, Arr.ofRows, Gate.rot, Gate.Z] at this ⊢
    rw [this]; ring
  · simp [Arr.toMatrix, rzMatrix, Arr.ofRows, Gate.rot, Gate.Z]
  · simp [Arr.toMatrix, rzMatrix, Arr.ofRows, Gate.rot, Gate.Z]
  · have := exp_half θ
    simp [Arr.toMatrix, rzMatrix, Arr.ofRows, Gate.rot, Gate.Z] at this ⊢
    rw [this]; ring

theorem exp_quarter_add (φ : ℝ) : exp (-I * (Real.pi / 2 + φ)) = -I * Real.cos φ - Real.sin φ := by
  rw [show -I * ((Real.pi : ℂ) / 2 + φ) = ((-(φ + Real.pi / 2) : ℝ) : ℂ) * I by push_cast; ring, exp_mul_I,
    ← ofReal_cos, ← ofReal_sin, Real.cos_neg, Real.sin_neg, Real.cos_add_pi_div_two, Real.sin_add_pi_div_two]
  push_cast; ring

theorem exp_quarter_sub (φ : ℝ) : exp (-I * (Real.pi / 2 - φ)) = -I * Real.cos φ + Real.sin φ := by
  have := exp_quarter_add (-φ)
  rw [Real.cos_neg, Real.sin_neg] at this
  rw [ofReal_neg, ofReal_neg, sub_neg_eq_add, ← sub_eq_add_neg] at this
  exact this

theorem rphiMatrix_is (θ φ : ℝ) :
    (rphiMatrix θ φ).Is (Gate.rot ((Real.cos φ : ℂ) • Gate.X + (Real.sin φ : ℂ) • Gate.Y) θ) := by
  refine ⟨rfl, rfl, ?_⟩
  have h1 := exp_quarter_add φ
  have h2 := exp_quarter_sub φ
  ext i j; fin_cases i <;> fin_cases j <;>
    simp [Arr.toMatrix, rphiMatrix, Arr.ofRows, Gate.rot, Gate.X, Gate.Y] at h1 h2 ⊢
  · rw [h1]; linear_combination (-(Complex.sin (θ / 2)) * Complex.sin φ) * I_sq
  · rw [h2]; linear_combination ((Complex.sin (θ / 2)) * Complex.sin φ) * I_sq

theorem xxMatrix_is (θ : ℝ) : (xxMatrix θ).Is (Gate.rot Gate.XX (2 * θ)) := by
  refine ⟨rfl, rfl, ?_⟩
  rw [Gate.XX_eq]
  have h : (2 * θ) / 2 = θ := by ring
  ext i j; fin_cases i <;> fin_cases j <;>
    simp [Arr.toMatrix, xxMatrix, Arr.ofRows, Gate.rot]

theorem rotationXYZMatrix_is (α β γ : ℝ) : (ParamDefinitions.rotationXYZMatrix α β γ).Is
    (Gate.rot Gate.Z α * Gate.rot Gate.Y β * Gate.rot Gate.Z γ) := by
  refine ⟨rfl, rfl, ?_⟩
  rw [← (rzMatrix_is α).2.2, ← (rzMatrix_is γ).2.2, ← (ryMatrix_is β).2.2]
  have e1 : exp (-I * (α + γ) / 2) = exp (-I * α / 2) * exp (-I * γ / 2) := by
    rw [← exp_add]; congr 1; ring
  have e2 : exp (-I * (α - γ) / 2) = exp (-I * α / 2) * exp (I * γ / 2) := by
    rw [← exp_add]; congr 1; ring
  have e3 : exp (I * (α - γ) / 2) = exp (I * α / 2) * exp (-I * γ / 2) := by
    rw [← exp_add]; congr 1; ring
  have e4 : exp (I * (α + γ) / 2) = exp (I * α / 2) * exp (I * γ / 2) := by
    rw [← exp_add]; congr 1; ring
  ext i j
  rw [Matrix.mul_apply, Fin.sum_univ_two, Matrix.mul_apply, Matrix.mul_apply, Fin.sum_univ_two, Fin.sum_univ_two]
  fin_cases i <;> fin_cases j <;>
    simp only [Arr.toMatrix, ParamDefinitions.rotationXYZMatrix, Arr.ofRows, rzMatrix, ryMatrix, e1, e2, e3, e4,
      Fin.isValue, Fin.val_zero, Fin.val_one, List.getD_cons_zero,
      List.getD_cons_succ] <;> ring

theorem cnotMatrix_is : cnotMatrix.Is Gate.CNOT := by
  refine ⟨rfl, rfl, ?_⟩
  ext i j; fin_cases i <;> fin_cases j <;> simp [Arr.toMatrix, cnotMatrix, Arr.ofRows, Gate.CNOT]

theorem ccnotMatrix_is : ccnotMatrix.Is Gate.CCNOT := by
  refine ⟨rfl, rfl, ?_⟩
  ext i j; fin_cases i <;> fin_cases j <;> simp [Arr.toMatrix, ccnotMatrix, Arr.ofRows, Gate.CCNOT]

end UnitaryDefinitions

namespace Gate

/-- Basis state permutation of `CNOT`. -/
def cnotPerm : Fin 4 → Fin 4 := ![0, 1, 3, 2]
/-- Basis state permutation of `CCNOT`. -/
def ccnotPerm : Fin 8 → Fin 8 := ![0, 1, 2, 3, 4, 5, 7, 6]
/-- Basis state permutation of `CNOT` from qubit 2 to qubit 0. -/
def perm20 : Fin 8 → Fin 8 := ![0, 5, 2, 7, 4, 1, 6, 3]
/-- Basis state permutation of `CNOT` from qubit 2 to qubit 1. -/
def perm21 : Fin 8 → Fin 8 := ![0, 3, 2, 1, 4, 7, 6, 5]

theorem CNOT_eq : CNOT = Matrix.of fun r c => if r = cnotPerm c then (1 : ℂ) else 0 := by
  have h : ∀ r c : Fin 4, (r.val / 2 = c.val / 2 ∧ r.val % 2 = (c.val / 2 + c.val) % 2) ↔ r = cnotPerm c := by
    decide
  ext r c
  simp only [CNOT, h, Matrix.of_apply]

theorem CCNOT_eq : CCNOT = Matrix.of fun r c => if r = ccnotPerm c then (1 : ℂ) else 0 := by
  have h : ∀ r c : Fin 8, (r.val / 2 = c.val / 2 ∧
      r.val % 2 = (c.val / 4 * (c.val / 2 % 2) + c.val) % 2) ↔ r = ccnotPerm c := by
    decide
  ext r c
  simp only [CCNOT, h, Matrix.of_apply]

theorem CNOT_unitary : CNOT ∈ unitaryGroup (Fin 4) ℂ := by
  rw [CNOT_eq]; exact perm_unitary (by decide)

theorem CCNOT_unitary : CCNOT ∈ unitaryGroup (Fin 8) ℂ := by
  rw [CCNOT_eq]; exact perm_unitary (by decide)

theorem embed20 : embed 3 [2, 0] CNOT = Matrix.of fun r c => if r = perm20 c then (1 : ℂ) else 0 := by
  have h : ∀ r c : Fin 8, (AgreeOff 3 [2, 0] r c ∧ (gather 3 [2, 0] r / 2 = gather 3 [2, 0] c / 2 ∧
      gather 3 [2, 0] r % 2 = (gather 3 [2, 0] c / 2 + gather 3 [2, 0] c) % 2)) ↔ r = perm20 c := by
    decide
  ext r c
  have := h r c
  simp only [embed, CNOT, Matrix.of_apply, ← this]
  split_ifs <;> simp_all

theorem embed21 : embed 3 [2, 1] CNOT = Matrix.of fun r c => if r = perm21 c then (1 : ℂ) else 0 := by
  have h : ∀ r c : Fin 8, (AgreeOff 3 [2, 1] r c ∧ (gather 3 [2, 1] r / 2 = gather 3 [2, 1] c / 2 ∧
      gather 3 [2, 1] r % 2 = (gather 3 [2, 1] c / 2 + gather 3 [2, 1] c) % 2)) ↔ r = perm21 c := by
    decide
  ext r c
  have := h r c
  simp only [embed, CNOT, Matrix.of_apply, ← this]
  split_ifs <;> simp_all

theorem phaseFlip_apply (r c : Fin 8) : phaseFlip r c = H3 (perm21 (perm20 (ccnotPerm r))) c := by
  unfold phaseFlip
  rw [CCNOT_eq]
  have e20 := embed20
  have e21 := embed21
  rw [Matrix.mul_assoc, Matrix.mul_assoc]
  rw [perm_mul (by decide), Matrix.of_apply]
  change (embed 3 [2, 0] CNOT * (embed 3 [2, 1] CNOT * H3)) (ccnotPerm r) c = _
  rw [embed20, embed21, perm_mul (by decide), Matrix.of_apply, perm_mul (by decide), Matrix.of_apply]

theorem H3_unitary : H3 ∈ unitaryGroup (Fin 8) ℂ := by
  have key : ∀ i j : Fin 8, (∑ k : Fin 8,
      ((-1 : ℤ) ^ (qubit 3 0 i * qubit 3 0 k + qubit 3 1 i * qubit 3 1 k + qubit 3 2 i * qubit 3 2 k)) *
      ((-1 : ℤ) ^ (qubit 3 0 j * qubit 3 0 k + qubit 3 1 j * qubit 3 1 k + qubit 3 2 j * qubit 3 2 k)))
      = if i = j then 8 else 0 := by decide
  have hs : (((1 / Real.sqrt 8 : ℝ) : ℂ)) * ((1 / Real.sqrt 8 : ℝ) : ℂ) = 1 / 8 := by
    rw [← ofReal_mul, div_mul_div_comm, Real.mul_self_sqrt (by norm_num)]; norm_num
  rw [mem_unitaryGroup_iff, star_eq_conjTranspose]
  ext i j
  rw [Matrix.mul_apply]
  have h := congrArg (fun z : ℤ => (z : ℂ)) (key i j)
  simp only [Int.cast_sum, Int.cast_mul, Int.cast_pow, Int.cast_neg, Int.cast_one] at h
  simp only [H3, conjTranspose_apply, Complex.star_def, map_mul, map_pow, map_neg, map_one, conj_ofReal]
  calc _ = ∑ k : Fin 8, (1 / 8 : ℂ) *
      (((-1 : ℂ) ^ (qubit 3 0 i * qubit 3 0 k + qubit 3 1 i * qubit 3 1 k + qubit 3 2 i * qubit 3 2 k)) *
      ((-1 : ℂ) ^ (qubit 3 0 j * qubit 3 0 k + qubit 3 1 j * qubit 3 1 k + qubit 3 2 j * qubit 3 2 k))) := by
        refine Finset.sum_congr rfl fun k _ => ?_
        rw [← hs]; ring
    _ = _ := by
        rw [← Finset.mul_sum, h, Matrix.one_apply]
        split <;> simp

theorem phaseFlip_unitary : phaseFlip ∈ unitaryGroup (Fin 8) ℂ := by
  unfold phaseFlip
  have h20 : embed 3 [2, 0] CNOT ∈ unitaryGroup (Fin 8) ℂ := by
    rw [embed20]; exact perm_unitary (by decide)
  have h21 : embed 3 [2, 1] CNOT ∈ unitaryGroup (Fin 8) ℂ := by
    rw [embed21]; exact perm_unitary (by decide)
  exact mul_mem (mul_mem (mul_mem CCNOT_unitary h20) h21) H3_unitary

/-- The integer signs of `qecc_phase_flip`. -/
def qeccInt : List (List ℤ) :=
  [[1, 1, 1, 1, 1, 1, 1, 1],
   [1, -1, -1, 1, -1, 1, 1, -1],
   [1, 1, -1, -1, 1, 1, -1, -1],
   [1, -1, 1, -1, -1, 1, -1, 1],
   [1, 1, 1, 1, -1, -1, -1, -1],
   [1, -1, -1, 1, 1, -1, -1, 1],
   [1, -1, 1, -1, 1, -1, 1, -1],
   [1, 1, -1, -1, -1, -1, 1, 1]]

end Gate

theorem UnitaryDefinitions.qeccMatrix_eq : UnitaryDefinitions.qeccMatrix.toMatrix 8 = Gate.phaseFlip := by
  have key : ∀ r c : Fin 8, (Gate.qeccInt.getD r []).getD c 0 =
      (-1) ^ (qubit 3 0 (Gate.perm21 (Gate.perm20 (Gate.ccnotPerm r))) * qubit 3 0 c +
        qubit 3 1 (Gate.perm21 (Gate.perm20 (Gate.ccnotPerm r))) * qubit 3 1 c +
        qubit 3 2 (Gate.perm21 (Gate.perm20 (Gate.ccnotPerm r))) * qubit 3 2 c) := by decide
  have hsign : ∀ r c : Fin 8, UnitaryDefinitions.qeccSigns.val r c = (((Gate.qeccInt.getD r []).getD c 0 : ℤ) : ℂ) := by
    intro r c
    fin_cases r <;> fin_cases c <;> simp [UnitaryDefinitions.qeccSigns, Arr.ofRows, Gate.qeccInt]
  ext r c
  rw [Gate.phaseFlip_apply]
  change ((1 / Real.sqrt 8 : ℝ) : ℂ) * UnitaryDefinitions.qeccSigns.val r c = _
  rw [hsign, key, Gate.H3]
  push_cast
  rfl

namespace ParamDefinitions

theorem angle_eq {s : String} (hs : s ≠ "") : angle s = .ok ⟨s, 0, 2 * Real.pi, true⟩ := by
  unfold angle Parameter.new
  rw [assertE_of hs, ok_bind, assertE_of (by positivity), ok_bind]; rfl

theorem rotationXY_eq (τ : Arith) : rotationXY τ = .ok
    { dimension := 2,
      parameterizedMatrix := fun vs => match vs with
        | [θ, φ] => do return (← UnitaryDefinitions.rphi τ θ φ).getMatrix
        | _ => .error .typeError,
      parameters := [⟨"theta", 0, 2 * Real.pi, true⟩, ⟨"phi", 0, 2 * Real.pi, true⟩],
      operationName := "Rxy" } := by
  unfold rotationXY ParamUnitary.new
  rw [angle_eq (by decide), ok_bind, angle_eq (by decide), ok_bind, assertE_of (by norm_num), ok_bind]; rfl

theorem rotationXYZ_eq (τ : Arith) : rotationXYZ τ = .ok
    { dimension := 2,
      parameterizedMatrix := fun vs => match vs with
        | [α, β, γ] => .ok (τ.gate "rotation_xyz" [α, β, γ] (rotationXYZMatrix α β γ))
        | _ => .error .typeError,
      parameters := [⟨"alpha", 0, 2 * Real.pi, true⟩, ⟨"beta", 0, 2 * Real.pi, true⟩,
        ⟨"gamma", 0, 2 * Real.pi, true⟩],
      operationName := "Rxyz" } := by
  unfold rotationXYZ ParamUnitary.new
  rw [angle_eq (by decide), ok_bind, angle_eq (by decide), ok_bind, angle_eq (by decide), ok_bind,
    assertE_of (by norm_num), ok_bind]; rfl

theorem xx_eq (τ : Arith) : xx τ = .ok
    { dimension := 4,
      parameterizedMatrix := fun vs => match vs with
        | [θ] => do return (← UnitaryDefinitions.xx τ θ).getMatrix
        | _ => .error .typeError,
      parameters := [⟨"theta", 0, 2 * Real.pi, true⟩],
      operationName := "XX" } := by
  unfold xx ParamUnitary.new
  rw [angle_eq (by decide), ok_bind, assertE_of (by norm_num), ok_bind]; rfl

theorem gms_eq (τ : Arith) (n : ℕ) : gms τ n = .ok
    { dimension := 2 ^ n,
      parameterizedMatrix := fun vs => match vs with
        | [θ] => do return (← UnitaryDefinitions.gms τ n θ).getMatrix
        | _ => .error .typeError,
      parameters := [⟨"theta", 0, 2 * Real.pi, true⟩],
      operationName := "GMS" ++ toString n } := by
  unfold gms ParamUnitary.new
  rw [angle_eq (by decide), ok_bind, assertE_of (by positivity), ok_bind]; rfl

end ParamDefinitions

end Stoq
