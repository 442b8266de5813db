import Mathlib.LinearAlgebra.Matrix.Hermitian
import Mathlib.Analysis.Matrix.Order
import Verif.Model.PaperNoise
import Verif.Spec.PaperNoise
import Verif.Proofs.Gates

/-! Lemmas for C73. -/

namespace Stoq

namespace Noise

open Matrix Complex Paper
open scoped ComplexOrder Kronecker

theorem letter_eq : letter = pauli := by
  funext i; fin_cases i <;> rfl

theorem coords_eq (ρ : Matrix (Fin 2) (Fin 2) ℂ) (i : Fin 4) : coords ρ i = ((pauli i * ρ).trace).re := by
  fin_cases i
  · simp [coords, pauli]
  all_goals rfl

theorem coords2_eq (ρ : Matrix (Fin 2 × Fin 2) (Fin 2 × Fin 2) ℂ) (i : Fin 4 × Fin 4) :
    coords2 ρ i = ((pauli2 i * ρ).trace).re := by
  unfold coords2 pauli2
  rw [letter_eq]

theorem pauli_hermitian (i : Fin 4) : (pauli i)ᴴ = pauli i := by
  fin_cases i <;> (ext r c; fin_cases r <;> fin_cases c <;> simp [pauli, conjTranspose_apply])

theorem pauli2_hermitian (i : Fin 4 × Fin 4) : (pauli2 i)ᴴ = pauli2 i := by
  unfold pauli2
  change (pauli i.1 ⊗ₖ pauli i.2)ᴴ = pauli i.1 ⊗ₖ pauli i.2
  rw [conjTranspose_kronecker, pauli_hermitian, pauli_hermitian]

/-- The sum over the Pauli matrices is the swap. -/
theorem pauli_swap (a b c d : Fin 2) :
    ∑ i, pauli i a b * pauli i c d = if a = d ∧ b = c then 2 else 0 := by
  fin_cases a <;> fin_cases b <;> fin_cases c <;> fin_cases d <;> simp [Fin.sum_univ_four, pauli] <;> norm_num

theorem pauli2_swap (a b c d : Fin 2 × Fin 2) :
    ∑ i, pauli2 i a b * pauli2 i c d = if a = d ∧ b = c then 4 else 0 := by
  have h : ∀ i : Fin 4 × Fin 4, pauli2 i a b * pauli2 i c d =
      (pauli i.1 a.1 b.1 * pauli i.1 c.1 d.1) * (pauli i.2 a.2 b.2 * pauli i.2 c.2 d.2) := by
    intro i
    simp only [pauli2, kroneckerMap_apply]
    ring
  simp only [h]
  rw [Fintype.sum_prod_type]
  simp only [← Finset.mul_sum, ← Finset.sum_mul, pauli_swap]
  obtain ⟨a1, a2⟩ := a
  obtain ⟨b1, b2⟩ := b
  obtain ⟨c1, c2⟩ := c
  obtain ⟨d1, d2⟩ := d
  simp only [Prod.mk.injEq]
  by_cases h1 : a1 = d1 <;> by_cases h2 : b1 = c1 <;> by_cases h3 : a2 = d2 <;> by_cases h4 : b2 = c2 <;>
    simp [h1, h2, h3, h4]
  norm_num

theorem pauli_trace (i j : Fin 4) : (pauli i * pauli j).trace = if i = j then 2 else 0 := by
  fin_cases i <;> fin_cases j <;> simp [pauli, trace_fin_two] <;> norm_num

theorem pauli2_trace (i j : Fin 4 × Fin 4) : (pauli2 i * pauli2 j).trace = if i = j then 4 else 0 := by
  unfold pauli2
  change ((pauli i.1 ⊗ₖ pauli i.2) * (pauli j.1 ⊗ₖ pauli j.2)).trace = _
  rw [← mul_kronecker_mul, trace_kronecker, pauli_trace, pauli_trace]
  obtain ⟨i1, i2⟩ := i
  obtain ⟨j1, j2⟩ := j
  simp only [Prod.mk.injEq]
  by_cases h1 : i1 = j1 <;> by_cases h2 : i2 = j2 <;> simp [h1, h2]
  norm_num

/-- What the proofs use of the Pauli bases. -/
structure Basis {ι κ : Type} [Fintype ι] [DecidableEq ι] [Fintype κ] [DecidableEq κ] (σ : ι → Matrix κ κ ℂ) : Prop where
  herm : ∀ i, (σ i)ᴴ = σ i
  swap : ∀ a b c d, ∑ i, σ i a b * σ i c d = if a = d ∧ b = c then (Fintype.card κ : ℂ) else 0
  orth : ∀ i j, (σ i * σ j).trace = if i = j then (Fintype.card κ : ℂ) else 0
  pos : 0 < Fintype.card κ

theorem basis1 : Basis pauli where
  herm := pauli_hermitian
  swap := by simpa using pauli_swap
  orth := by simpa using pauli_trace
  pos := by simp

theorem basis2 : Basis pauli2 where
  herm := pauli2_hermitian
  swap := fun a b c d => by rw [pauli2_swap]; simp
  orth := fun i j => by rw [pauli2_trace]; simp
  pos := by simp

section

variable {ι κ : Type} [Fintype ι] [DecidableEq ι] [Fintype κ] [DecidableEq κ] {σ : ι → Matrix κ κ ℂ}

/-- Coordinates of an operator. -/
noncomputable def coordsOf (σ : ι → Matrix κ κ ℂ) (ρ : Matrix κ κ ℂ) : ι → ℝ := fun i => ((σ i * ρ).trace).re

theorem Basis.expand (h : Basis σ) (ρ : Matrix κ κ ℂ) :
    ∑ i, (σ i * ρ).trace • σ i = (Fintype.card κ : ℂ) • ρ := by
  ext c d
  simp only [Matrix.sum_apply, Matrix.smul_apply, smul_eq_mul, trace, diag_apply, Matrix.mul_apply, Finset.sum_mul]
  rw [Finset.sum_comm]
  have : ∀ a, ∑ i, ∑ b, σ i a b * ρ b a * σ i c d = ∑ b, ρ b a * ∑ i, σ i a b * σ i c d := by
    intro a
    rw [Finset.sum_comm]
    refine Finset.sum_congr rfl fun b _ => ?_
    rw [Finset.mul_sum]
    exact Finset.sum_congr rfl fun i _ => by ring
  simp only [this, h.swap]
  rw [Finset.sum_eq_single d, Finset.sum_eq_single c]
  · simp [mul_comm]
  · intro b _ hb; simp [hb]
  · simp
  · intro a _ ha; simp [ha]
  · simp

theorem Basis.real (h : Basis σ) {ρ : Matrix κ κ ℂ} (hρ : ρᴴ = ρ) (i : ι) :
    ((coordsOf σ ρ i : ℝ) : ℂ) = (σ i * ρ).trace := by
  unfold coordsOf
  refine Complex.conj_eq_iff_re.mp ?_
  have : (starRingEnd ℂ) ((σ i * ρ).trace) = ((σ i * ρ)ᴴ).trace := by
    rw [trace_conjTranspose]; rfl
  rw [this, conjTranspose_mul, hρ, h.herm, trace_mul_comm]

omit [DecidableEq κ] in
theorem hermitian_conj {U ρ : Matrix κ κ ℂ} (hρ : ρᴴ = ρ) : (U * ρ * Uᴴ)ᴴ = U * ρ * Uᴴ := by
  simp [conjTranspose_mul, hρ, Matrix.mul_assoc]

/-- The matrix given by pygsti acts on coordinates as conjugation by the unitary. -/
theorem Basis.gate (h : Basis σ) (U : Matrix κ κ ℂ) {ρ : Matrix κ κ ℂ} (hρ : ρᴴ = ρ) :
    (unitaryToPauligate σ U).mulVec (coordsOf σ ρ) = coordsOf σ (U * ρ * Uᴴ) := by
  have hN : (Fintype.card κ : ℂ) ≠ 0 := by exact_mod_cast h.pos.ne'
  funext i
  have h1 : ∀ j, unitaryToPauligate σ U i j * coordsOf σ ρ j =
      ((σ i * (U * ((σ j * ρ).trace • σ j) * Uᴴ)).trace / Fintype.card κ).re := by
    intro j
    unfold unitaryToPauligate
    rw [← Complex.re_mul_ofReal, h.real hρ]
    congr 1
    simp only [Matrix.mul_smul, Matrix.smul_mul, trace_smul, smul_eq_mul]
    ring
  simp only [mulVec, dotProduct, h1]
  rw [← Complex.re_sum, ← Finset.sum_div, ← trace_sum, ← Finset.mul_sum, ← Finset.sum_mul, ← Finset.mul_sum,
    h.expand, Matrix.mul_smul, Matrix.smul_mul, Matrix.mul_smul, trace_smul, smul_eq_mul, mul_div_cancel_left₀ _ hN]
  rfl

theorem Basis.coords_self (h : Basis σ) (j : ι) : coordsOf σ (σ j) = fun i => if i = j then (Fintype.card κ : ℝ) else 0 := by
  funext i
  unfold coordsOf
  rw [h.orth]
  split_ifs <;> simp

/-- Matrices that act alike on the coordinates of all Hermitian operators are equal. -/
theorem Basis.ext (h : Basis σ) {A B : Matrix ι ι ℝ}
    (hAB : ∀ ρ : Matrix κ κ ℂ, ρᴴ = ρ → A.mulVec (coordsOf σ ρ) = B.mulVec (coordsOf σ ρ)) : A = B := by
  have hN : (Fintype.card κ : ℝ) ≠ 0 := by exact_mod_cast h.pos.ne'
  ext i j
  have := congrFun (hAB (σ j) (h.herm j)) i
  rw [h.coords_self] at this
  simp only [mulVec, dotProduct, mul_ite, mul_zero, Finset.sum_ite_eq', Finset.mem_univ, if_true] at this
  exact mul_right_cancel₀ hN this

theorem Basis.coords_inj (h : Basis σ) {ρ ρ' : Matrix κ κ ℂ} (hρ : ρᴴ = ρ) (hρ' : ρ'ᴴ = ρ')
    (he : coordsOf σ ρ = coordsOf σ ρ') : ρ = ρ' := by
  have hN : (Fintype.card κ : ℂ) ≠ 0 := by exact_mod_cast h.pos.ne'
  have h1 : ∀ i, (σ i * ρ).trace = (σ i * ρ').trace := fun i => by rw [← h.real hρ, ← h.real hρ', he]
  have h2 := h.expand ρ
  simp only [h1] at h2
  rw [h.expand ρ'] at h2
  exact (smul_right_injective _ hN h2).symm

theorem Basis.gate_mul (h : Basis σ) (U V : Matrix κ κ ℂ) :
    unitaryToPauligate σ (U * V) = unitaryToPauligate σ U * unitaryToPauligate σ V :=
  h.ext fun ρ hρ => by
    rw [← mulVec_mulVec, h.gate _ hρ, h.gate _ hρ, h.gate _ (hermitian_conj hρ)]
    simp only [conjTranspose_mul, Matrix.mul_assoc]

theorem Basis.gate_one (h : Basis σ) : unitaryToPauligate σ 1 = 1 :=
  h.ext fun ρ hρ => by rw [h.gate _ hρ]; simp

theorem Basis.gate_smul (h : Basis σ) (c : ℂ) (hc : ‖c‖ = 1) (U : Matrix κ κ ℂ) :
    unitaryToPauligate σ (c • U) = unitaryToPauligate σ U :=
  h.ext fun ρ hρ => by
    rw [h.gate _ hρ, h.gate _ hρ, conjTranspose_smul, Matrix.smul_mul, Matrix.smul_mul, Matrix.mul_smul, smul_smul]
    have : c * star c = 1 := by
      change c * (starRingEnd ℂ) c = 1
      rw [Complex.mul_conj, Complex.normSq_eq_norm_sq, hc]; simp
    rw [this, one_smul]

end

theorem coords_fun (ρ : Matrix (Fin 2) (Fin 2) ℂ) : coords ρ = coordsOf pauli ρ := funext fun i => coords_eq ρ i

theorem coords2_fun (ρ : Matrix (Fin 2 × Fin 2) (Fin 2 × Fin 2) ℂ) : coords2 ρ = coordsOf pauli2 ρ :=
  funext fun i => coords2_eq ρ i

theorem pauli_trace_one (i : Fin 4) : (pauli i).trace = if i = 0 then 2 else 0 := by
  have := pauli_trace i 0
  simpa [pauli] using this

theorem diag1ddd_apply (d : ℝ) (i : Fin 4) (v : Fin 4 → ℝ) :
    (diag1ddd d).mulVec v i = (if i = 0 then 1 else d) * v i := by
  unfold diag1ddd
  rw [mulVec_diagonal]
  congr 1
  fin_cases i <;> simp

theorem mix_hermitian {d : ℝ} {ρ : Matrix (Fin 2) (Fin 2) ℂ} (hρ : ρᴴ = ρ) : (mix d ρ)ᴴ = mix d ρ := by
  have ht : star ρ.trace = ρ.trace := by rw [← trace_conjTranspose, hρ]
  unfold mix
  simp only [conjTranspose_add, conjTranspose_smul, hρ, conjTranspose_one]
  congr 1
  · simp
  · congr 1
    · simp
    · congr 1
      rw [star_div₀, ht]; simp

theorem coords_mix (d : ℝ) (ρ : Matrix (Fin 2) (Fin 2) ℂ) :
    coordsOf pauli (mix d ρ) = (diag1ddd d).mulVec (coordsOf pauli ρ) := by
  funext i
  rw [diag1ddd_apply]
  unfold coordsOf mix
  simp only [Matrix.mul_add, Matrix.mul_smul, Matrix.mul_one, trace_add, trace_smul, smul_eq_mul, pauli_trace_one]
  by_cases hi : i = 0
  · subst hi
    simp [pauli]
    ring
  · simp [hi]

/-- Conjugation and loss commute on one qubit. -/
theorem mix_conj (d : ℝ) {U ρ : Matrix (Fin 2) (Fin 2) ℂ} (hU : U ∈ unitaryGroup (Fin 2) ℂ) :
    mix d (U * ρ * Uᴴ) = U * mix d ρ * Uᴴ := by
  have h1 : Uᴴ * U = 1 := mem_unitaryGroup_iff'.mp hU
  have h2 : U * Uᴴ = 1 := mem_unitaryGroup_iff.mp hU
  have h3 : (U * ρ * Uᴴ).trace = ρ.trace := by rw [trace_mul_comm, ← Matrix.mul_assoc, h1, Matrix.one_mul]
  unfold mix
  rw [h3]
  simp only [Matrix.mul_add, Matrix.add_mul, Matrix.mul_smul, Matrix.smul_mul, Matrix.mul_one, h2]

theorem diag1ddd_comm (d : ℝ) {U : Matrix (Fin 2) (Fin 2) ℂ} (hU : U ∈ unitaryGroup (Fin 2) ℂ) :
    diag1ddd d * unitaryToPauligate pauli U = unitaryToPauligate pauli U * diag1ddd d :=
  basis1.ext fun ρ hρ => by
    rw [← mulVec_mulVec, ← mulVec_mulVec, ← coords_mix, basis1.gate _ hρ, ← coords_mix,
      basis1.gate _ (mix_hermitian hρ), mix_conj d hU]

theorem diag1ddd_mul (d e : ℝ) : diag1ddd d * diag1ddd e = diag1ddd (d * e) := by
  unfold diag1ddd
  rw [diagonal_mul_diagonal]
  congr 1
  funext i; fin_cases i <;> simp

theorem diag1ddd_one : diag1ddd 1 = 1 := by
  unfold diag1ddd
  rw [← diagonal_one]
  congr 1
  funext i; fin_cases i <;> simp

/-! Two qubits. -/

theorem trace_one_kron (B : Matrix (Fin 2) (Fin 2) ℂ) (ρ : Matrix (Fin 2 × Fin 2) (Fin 2 × Fin 2) ℂ) :
    (((1 : Matrix (Fin 2) (Fin 2) ℂ) ⊗ₖ B) * ρ).trace = (B * second ρ).trace := by
  simp [trace, Matrix.mul_apply, Fintype.sum_prod_type, second, Fin.sum_univ_two, kroneckerMap_apply]
  ring

theorem trace_kron_one (B : Matrix (Fin 2) (Fin 2) ℂ) (ρ : Matrix (Fin 2 × Fin 2) (Fin 2 × Fin 2) ℂ) :
    ((B ⊗ₖ (1 : Matrix (Fin 2) (Fin 2) ℂ)) * ρ).trace = (B * first ρ).trace := by
  simp [trace, Matrix.mul_apply, Fintype.sum_prod_type, first, Fin.sum_univ_two, kroneckerMap_apply]
  ring

theorem trace_pauli2_first (i : Fin 4 × Fin 4) (ρ : Matrix (Fin 2 × Fin 2) (Fin 2 × Fin 2) ℂ) :
    (pauli2 i * (((1 / 2 : ℂ) • (1 : Matrix (Fin 2) (Fin 2) ℂ)) ⊗ₖ second ρ)).trace =
      if i.1 = 0 then (pauli2 i * ρ).trace else 0 := by
  unfold pauli2
  change ((pauli i.1 ⊗ₖ pauli i.2) * _).trace = _
  rw [← mul_kronecker_mul, trace_kronecker, Matrix.mul_smul, trace_smul, Matrix.mul_one, pauli_trace_one]
  by_cases h : i.1 = 0
  · rw [if_pos h, if_pos h, h, ← trace_one_kron]
    simp [pauli]
  · rw [if_neg h, if_neg h]; simp

theorem trace_pauli2_second (i : Fin 4 × Fin 4) (ρ : Matrix (Fin 2 × Fin 2) (Fin 2 × Fin 2) ℂ) :
    (pauli2 i * (first ρ ⊗ₖ ((1 / 2 : ℂ) • (1 : Matrix (Fin 2) (Fin 2) ℂ)))).trace =
      if i.2 = 0 then (pauli2 i * ρ).trace else 0 := by
  unfold pauli2
  change ((pauli i.1 ⊗ₖ pauli i.2) * _).trace = _
  rw [← mul_kronecker_mul, trace_kronecker, Matrix.mul_smul, trace_smul, Matrix.mul_one, pauli_trace_one]
  by_cases h : i.2 = 0
  · rw [if_pos h, if_pos h, h, ← trace_kron_one]
    simp [pauli]
  · rw [if_neg h, if_neg h]; simp

theorem coords_mixFirst (d : ℝ) (ρ : Matrix (Fin 2 × Fin 2) (Fin 2 × Fin 2) ℂ) (i : Fin 4 × Fin 4) :
    coordsOf pauli2 (mixFirst d ρ) i = (if i.1 = 0 then 1 else d) * coordsOf pauli2 ρ i := by
  unfold coordsOf mixFirst
  have := trace_pauli2_first i ρ
  rw [Matrix.mul_add, Matrix.mul_smul, Matrix.mul_smul, trace_add, trace_smul, trace_smul]
  rw [show (pauli2 i * kroneckerMap (fun x1 x2 => x1 * x2) ((1 / 2 : ℂ) • (1 : Matrix (Fin 2) (Fin 2) ℂ)) (second ρ)).trace
    = _ from this]
  by_cases h : i.1 = 0
  · simp [h]; ring
  · simp [h]

theorem coords_mixSecond (d : ℝ) (ρ : Matrix (Fin 2 × Fin 2) (Fin 2 × Fin 2) ℂ) (i : Fin 4 × Fin 4) :
    coordsOf pauli2 (mixSecond d ρ) i = (if i.2 = 0 then 1 else d) * coordsOf pauli2 ρ i := by
  unfold coordsOf mixSecond
  have := trace_pauli2_second i ρ
  rw [Matrix.mul_add, Matrix.mul_smul, Matrix.mul_smul, trace_add, trace_smul, trace_smul]
  rw [show (pauli2 i * kroneckerMap (fun x1 x2 => x1 * x2) (first ρ) ((1 / 2 : ℂ) • (1 : Matrix (Fin 2) (Fin 2) ℂ))).trace
    = _ from this]
  by_cases h : i.2 = 0
  · simp [h]; ring
  · simp [h]

theorem coords_mix2 (d : ℝ) (ρ : Matrix (Fin 2 × Fin 2) (Fin 2 × Fin 2) ℂ) :
    coordsOf pauli2 (mixSecond d (mixFirst d ρ)) =
      (kroneckerMap (· * ·) (diag1ddd d) (diag1ddd d)).mulVec (coordsOf pauli2 ρ) := by
  funext i
  rw [coords_mixSecond, coords_mixFirst]
  change _ = (diag1ddd d ⊗ₖ diag1ddd d).mulVec _ i
  unfold diag1ddd
  rw [diagonal_kronecker_diagonal, mulVec_diagonal]
  obtain ⟨i, j⟩ := i
  fin_cases i <;> fin_cases j <;> simp <;> ring

theorem second_hermitian {ρ : Matrix (Fin 2 × Fin 2) (Fin 2 × Fin 2) ℂ} (hρ : ρᴴ = ρ) : (second ρ)ᴴ = second ρ := by
  ext r c
  simp only [conjTranspose_apply, second, star_sum]
  exact Finset.sum_congr rfl fun a _ => congrFun (congrFun hρ (a, r)) (a, c)

theorem first_hermitian {ρ : Matrix (Fin 2 × Fin 2) (Fin 2 × Fin 2) ℂ} (hρ : ρᴴ = ρ) : (first ρ)ᴴ = first ρ := by
  ext r c
  simp only [conjTranspose_apply, first, star_sum]
  exact Finset.sum_congr rfl fun a _ => congrFun (congrFun hρ (r, a)) (c, a)

theorem half_hermitian : ((1 / 2 : ℂ) • (1 : Matrix (Fin 2) (Fin 2) ℂ))ᴴ = (1 / 2 : ℂ) • 1 := by
  rw [conjTranspose_smul, conjTranspose_one]; congr 1; simp

theorem mixFirst_hermitian {d : ℝ} {ρ : Matrix (Fin 2 × Fin 2) (Fin 2 × Fin 2) ℂ} (hρ : ρᴴ = ρ) :
    (mixFirst d ρ)ᴴ = mixFirst d ρ := by
  unfold mixFirst
  rw [conjTranspose_add, conjTranspose_smul, conjTranspose_smul, hρ]
  congr 1
  · simp
  · congr 1
    · simp
    · change (_ ⊗ₖ _)ᴴ = _ ⊗ₖ _
      rw [conjTranspose_kronecker, half_hermitian, second_hermitian hρ]

theorem mixSecond_hermitian {d : ℝ} {ρ : Matrix (Fin 2 × Fin 2) (Fin 2 × Fin 2) ℂ} (hρ : ρᴴ = ρ) :
    (mixSecond d ρ)ᴴ = mixSecond d ρ := by
  unfold mixSecond
  rw [conjTranspose_add, conjTranspose_smul, conjTranspose_smul, hρ]
  congr 1
  · simp
  · congr 1
    · simp
    · change (_ ⊗ₖ _)ᴴ = _ ⊗ₖ _
      rw [conjTranspose_kronecker, half_hermitian, first_hermitian hρ]

/-! States stay states. -/

theorem half_posSemidef : ((1 / 2 : ℂ) • (1 : Matrix (Fin 2) (Fin 2) ℂ)).PosSemidef :=
  PosSemidef.one.smul (by rw [Complex.le_def]; norm_num)

theorem coe_nonneg {d : ℝ} (h : 0 ≤ d) : (0 : ℂ) ≤ (d : ℂ) := by exact_mod_cast h

theorem mix_state {d : ℝ} (h0 : 0 ≤ d) (h1 : d ≤ 1) {ρ : Matrix (Fin 2) (Fin 2) ℂ} (h : IsState ρ) :
    IsState (mix d ρ) := by
  constructor
  · unfold mix
    rw [h.2]
    exact (h.1.smul (coe_nonneg h0)).add (half_posSemidef.smul (coe_nonneg (by linarith)))
  · unfold mix
    rw [trace_add, trace_smul, trace_smul, trace_smul, h.2]
    simp

theorem conj_state {κ : Type} [Fintype κ] [DecidableEq κ] {U ρ : Matrix κ κ ℂ} (hU : U ∈ unitaryGroup κ ℂ)
    (h : IsState ρ) : IsState (U * ρ * Uᴴ) := by
  refine ⟨h.1.mul_mul_conjTranspose_same U, ?_⟩
  rw [trace_mul_comm, ← Matrix.mul_assoc, show Uᴴ * U = 1 from mem_unitaryGroup_iff'.mp hU, Matrix.one_mul, h.2]

theorem second_posSemidef {ρ : Matrix (Fin 2 × Fin 2) (Fin 2 × Fin 2) ℂ} (h : ρ.PosSemidef) :
    (second ρ).PosSemidef := by
  have : second ρ = ∑ a, ρ.submatrix (fun r => (a, r)) (fun r => (a, r)) := by
    ext r c; simp [second, Matrix.sum_apply]
  rw [this]
  exact posSemidef_sum _ fun a _ => h.submatrix _

theorem first_posSemidef {ρ : Matrix (Fin 2 × Fin 2) (Fin 2 × Fin 2) ℂ} (h : ρ.PosSemidef) :
    (first ρ).PosSemidef := by
  have : first ρ = ∑ a, ρ.submatrix (fun r => (r, a)) (fun r => (r, a)) := by
    ext r c; simp [first, Matrix.sum_apply]
  rw [this]
  exact posSemidef_sum _ fun a _ => h.submatrix _

theorem mixFirst_state {d : ℝ} (h0 : 0 ≤ d) (h1 : d ≤ 1) {ρ : Matrix (Fin 2 × Fin 2) (Fin 2 × Fin 2) ℂ}
    (h : IsState ρ) : IsState (mixFirst d ρ) := by
  constructor
  · exact (h.1.smul (coe_nonneg h0)).add
      ((half_posSemidef.kronecker (second_posSemidef h.1)).smul (coe_nonneg (by linarith)))
  · have : (second ρ).trace = ρ.trace := by
      simp [trace, second, Fintype.sum_prod_type, Fin.sum_univ_two]; ring
    unfold mixFirst
    rw [trace_add, trace_smul, trace_smul]
    change _ + _ • (_ ⊗ₖ _).trace = 1
    rw [trace_kronecker, this, h.2]
    simp

theorem mixSecond_state {d : ℝ} (h0 : 0 ≤ d) (h1 : d ≤ 1) {ρ : Matrix (Fin 2 × Fin 2) (Fin 2 × Fin 2) ℂ}
    (h : IsState ρ) : IsState (mixSecond d ρ) := by
  constructor
  · exact (h.1.smul (coe_nonneg h0)).add
      (((first_posSemidef h.1).kronecker half_posSemidef).smul (coe_nonneg (by linarith)))
  · have : (first ρ).trace = ρ.trace := by
      simp [trace, first, Fintype.sum_prod_type, Fin.sum_univ_two]
    unfold mixSecond
    rw [trace_add, trace_smul, trace_smul]
    change _ + _ • (_ ⊗ₖ _).trace = 1
    rw [trace_kronecker, this, h.2]
    simp

/-! The rotations. -/

theorem U_R_eq (φ θ : ℝ) : U_R φ θ = turn φ θ := by
  unfold U_R turn Gate.rot axis Gate.X Gate.Y
  ext r c
  fin_cases r <;> fin_cases c
  · simp
  · simp; linear_combination (-Complex.sin φ * Complex.sin (θ / 2)) * I_sq
  · simp; linear_combination (Complex.sin φ * Complex.sin (θ / 2)) * I_sq
  · simp

theorem U_Rz_eq (θ : ℝ) : U_Rz θ = Gate.rot Gate.Z θ := by
  unfold U_Rz Gate.rot Gate.Z
  ext r c
  fin_cases r <;> fin_cases c <;> simp
  · rw [show -(I * ((θ : ℂ) / 2)) = ((-(θ / 2) : ℝ) : ℂ) * I by push_cast; ring, Complex.exp_ofReal_mul_I]
    simp; ring
  · rw [show (I * ((θ : ℂ) / 2)) = (((θ / 2) : ℝ) : ℂ) * I by push_cast; ring, Complex.exp_ofReal_mul_I]
    simp; ring

theorem U_MS_eq (φ θ : ℝ) : U_MS φ θ = turn2 φ θ := by
  unfold U_MS turn2 Gate.rot axis Gate.X Gate.Y
  ext ⟨r1, r2⟩ ⟨c1, c2⟩
  fin_cases r1 <;> fin_cases r2 <;> fin_cases c1 <;> fin_cases c2 <;> simp [kroneckerMap_apply]
  · rw [mul_comm (φ : ℂ) 2, Complex.cos_two_mul, Complex.sin_two_mul]
    linear_combination (I * Complex.sin (θ / 2)) * (Complex.sin_sq_add_cos_sq φ) -
      (I * Complex.sin (θ / 2)) * (Complex.sin φ) ^ 2 * I_sq
  · linear_combination (I * Complex.sin (θ / 2)) * (- Complex.sin_sq_add_cos_sq φ) +
      (I * Complex.sin (θ / 2)) * (Complex.sin φ) ^ 2 * I_sq
  · linear_combination (I * Complex.sin (θ / 2)) * (- Complex.sin_sq_add_cos_sq φ) +
      (I * Complex.sin (θ / 2)) * (Complex.sin φ) ^ 2 * I_sq
  · rw [mul_comm (φ : ℂ) 2, Complex.cos_two_mul, Complex.sin_two_mul]
    linear_combination (I * Complex.sin (θ / 2)) * (Complex.sin_sq_add_cos_sq φ) -
      (I * Complex.sin (θ / 2)) * (Complex.sin φ) ^ 2 * I_sq

theorem turn_unitary (φ θ : ℝ) : turn φ θ ∈ unitaryGroup (Fin 2) ℂ :=
  Gate.rot_unitary (Gate.axis_sq φ) (Gate.axis_ct φ) θ

theorem axis2_sq (φ : ℝ) : (axis φ ⊗ₖ axis φ) * (axis φ ⊗ₖ axis φ) = 1 := by
  rw [← mul_kronecker_mul]
  have : axis φ * axis φ = 1 := Gate.axis_sq φ
  rw [this, one_kronecker_one]

theorem axis2_ct (φ : ℝ) : (axis φ ⊗ₖ axis φ)ᴴ = axis φ ⊗ₖ axis φ := by
  have : (axis φ)ᴴ = axis φ := Gate.axis_ct φ
  rw [conjTranspose_kronecker, this]

theorem turn2_unitary (φ θ : ℝ) : turn2 φ θ ∈ unitaryGroup (Fin 2 × Fin 2) ℂ :=
  Gate.rot_unitary (axis2_sq φ) (axis2_ct φ) θ

theorem turn_add (φ a b : ℝ) : turn φ a * turn φ b = turn φ (a + b) := Gate.rot_add (Gate.axis_sq φ) a b

theorem turn2_add (φ a b : ℝ) : turn2 φ a * turn2 φ b = turn2 φ (a + b) := Gate.rot_add (axis2_sq φ) a b

theorem turn_zero (φ : ℝ) : turn φ 0 = 1 := Gate.rot_zero
theorem turn2_zero (φ : ℝ) : turn2 φ 0 = 1 := Gate.rot_zero

end Noise

end Stoq
