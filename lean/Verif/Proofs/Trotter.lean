import Mathlib.Analysis.Normed.Algebra.Exponential
import Mathlib.Analysis.SpecialFunctions.Exponential
import Mathlib.Analysis.CStarAlgebra.Matrix
import Verif.Proofs.Evolution
import Verif.Proofs.Overlap

/-! # The error of products of exponentials -/

namespace Stoq

open Matrix

theorem exp_sub_le_half {x : ℝ} (hx : 0 ≤ x) : Real.exp x - 1 - x ≤ x ^ 2 / 2 * Real.exp x := by
  have h1 := NormedSpace.exp_series_hasSum_exp' (𝕂 := ℝ) x
  have h2 := h1.mul_left (x ^ 2 / 2)
  rw [← hasSum_nat_add_iff' 2] at h1
  simp only [Finset.sum_range_succ, Finset.range_zero, Finset.sum_empty] at h1
  have h3 := hasSum_le (fun n => ?_) h1 h2
  · rw [Real.exp_eq_exp_ℝ]
    have e : NormedSpace.exp x - 1 - x = NormedSpace.exp x -
      (0 + ((0 : ℕ).factorial : ℝ)⁻¹ • x ^ 0 + ((1 : ℕ).factorial : ℝ)⁻¹ • x ^ 1) := by simp; abel
    rw [e]
    exact h3
  · simp only [smul_eq_mul]
    have hf : (2 : ℝ) * (n.factorial : ℝ) ≤ ((n + 2).factorial : ℝ) := by
      rw [Nat.factorial_succ, Nat.factorial_succ]
      push_cast
      have h : (1 : ℝ) ≤ n.factorial := by exact_mod_cast Nat.factorial_pos n
      have hn : (0 : ℝ) ≤ n := Nat.cast_nonneg n
      nlinarith [mul_nonneg hn (by linarith : (0 : ℝ) ≤ n.factorial), mul_nonneg (mul_nonneg hn hn) (by linarith : (0 : ℝ) ≤ n.factorial)]
    have hp : (0 : ℝ) < n.factorial := by exact_mod_cast Nat.factorial_pos n
    calc ((n + 2).factorial : ℝ)⁻¹ * x ^ (n + 2) ≤ (2 * (n.factorial : ℝ))⁻¹ * x ^ (n + 2) := by gcongr
      _ = _ := by rw [pow_add]; field_simp

/-! ## In a Banach algebra -/

section Banach

variable {𝔸 : Type*} [NormedRing 𝔸] [NormedAlgebra ℂ 𝔸] [CompleteSpace 𝔸]

theorem norm_exp_sub_le (x : 𝔸) : ‖NormedSpace.exp x - 1 - x‖ ≤ Real.exp ‖x‖ - 1 - ‖x‖ := by
  have h1 := NormedSpace.exp_series_hasSum_exp' (𝕂 := ℂ) x
  have h2 := NormedSpace.exp_series_hasSum_exp' (𝕂 := ℝ) ‖x‖
  rw [← hasSum_nat_add_iff' 2] at h1 h2
  simp only [Finset.sum_range_succ, Finset.range_zero, Finset.sum_empty] at h1 h2
  have e1 : NormedSpace.exp x - 1 - x = ∑' n : ℕ, (((n + 2).factorial : ℂ)⁻¹ • x ^ (n + 2)) := by
    rw [h1.tsum_eq]; simp; abel
  have e2 : Real.exp ‖x‖ - 1 - ‖x‖ = NormedSpace.exp ‖x‖ -
      (0 + ((0 : ℕ).factorial : ℝ)⁻¹ • ‖x‖ ^ 0 + ((1 : ℕ).factorial : ℝ)⁻¹ • ‖x‖ ^ 1) := by
    rw [Real.exp_eq_exp_ℝ]; simp; abel
  rw [e1, e2]
  refine tsum_of_norm_bounded h2 fun n => ?_
  rw [norm_smul, smul_eq_mul]
  gcongr
  · simp
  · exact norm_pow_le' x (by omega)

variable [NormOneClass 𝔸]

theorem norm_exp_le (x : 𝔸) : ‖NormedSpace.exp x‖ ≤ Real.exp ‖x‖ := by
  have h := norm_exp_sub_le x
  calc ‖NormedSpace.exp x‖ = ‖(NormedSpace.exp x - 1 - x) + (1 + x)‖ := by congr 1; abel
    _ ≤ ‖NormedSpace.exp x - 1 - x‖ + (‖(1 : 𝔸)‖ + ‖x‖) := (norm_add_le _ _).trans (by gcongr; exact norm_add_le _ _)
    _ ≤ _ := by rw [norm_one]; linarith

theorem norm_prod_exp_le (l : List 𝔸) :
    ‖(l.map NormedSpace.exp).prod‖ ≤ Real.exp (l.map norm).sum := by
  induction l with
  | nil => simp
  | cons x l ih =>
    rw [List.map_cons, List.prod_cons, List.map_cons, List.sum_cons, Real.exp_add]
    exact (norm_mul_le _ _).trans (mul_le_mul (norm_exp_le x) ih (norm_nonneg _) (Real.exp_pos _).le)

/-- The product of exponentials agrees to first order with 1 plus the sum. -/
theorem norm_prod_exp_sub_le (l : List 𝔸) :
    ‖(l.map NormedSpace.exp).prod - 1 - l.sum‖ ≤ Real.exp (l.map norm).sum - 1 - (l.map norm).sum := by
  induction l with
  | nil => simp
  | cons x l ih =>
    have hP := norm_prod_exp_le l
    have hx := norm_exp_sub_le x
    have hS : ‖l.sum‖ ≤ (l.map norm).sum := by
      clear ih hP hx
      induction l with
      | nil => simp
      | cons y l ih => rw [List.sum_cons, List.map_cons, List.sum_cons]; exact (norm_add_le _ _).trans (by gcongr)
    simp only [List.map_cons, List.prod_cons, List.sum_cons]
    generalize (l.map NormedSpace.exp).prod = P at ih hP
    generalize l.sum = S at ih hS
    generalize (l.map norm).sum = s at ih hP hS
    have e : NormedSpace.exp x * P - 1 - (x + S) = (NormedSpace.exp x - 1 - x) * P + ((1 + x) * (P - 1 - S) + x * S) := by
      noncomm_ring
    have h1x : ‖(1 : 𝔸) + x‖ ≤ 1 + ‖x‖ := (norm_add_le _ _).trans (by rw [norm_one])
    have hx0 : 0 ≤ Real.exp ‖x‖ - 1 - ‖x‖ := (norm_nonneg _).trans hx
    calc _ ≤ ‖(NormedSpace.exp x - 1 - x) * P‖ + (‖(1 + x) * (P - 1 - S)‖ + ‖x * S‖) := by
          rw [e]; exact (norm_add_le _ _).trans (by gcongr; exact norm_add_le _ _)
      _ ≤ (Real.exp ‖x‖ - 1 - ‖x‖) * Real.exp s + ((1 + ‖x‖) * (Real.exp s - 1 - s) + ‖x‖ * s) := by
          gcongr
          · exact (norm_mul_le _ _).trans (by gcongr)
          · exact (norm_mul_le _ _).trans (by gcongr)
          · exact (norm_mul_le _ _).trans (by gcongr)
      _ = _ := by rw [Real.exp_add]; ring

/-- One step: the product of exponentials against the exponential of the sum. -/
theorem norm_prod_exp_sub_exp_le (l : List 𝔸) :
    ‖(l.map NormedSpace.exp).prod - NormedSpace.exp l.sum‖ ≤ (l.map norm).sum ^ 2 * Real.exp (l.map norm).sum := by
  have h1 := norm_prod_exp_sub_le l
  have h2 := norm_exp_sub_le l.sum
  have hS : ‖l.sum‖ ≤ (l.map norm).sum := by
    clear h1 h2
    induction l with
    | nil => simp
    | cons y l ih => rw [List.sum_cons, List.map_cons, List.sum_cons]; exact (norm_add_le _ _).trans (by gcongr)
  have hmono : ∀ a b : ℝ, 0 ≤ a → a ≤ b → Real.exp a - 1 - a ≤ Real.exp b - 1 - b := by
    intro a b ha hab
    have h3 := Real.add_one_le_exp (b - a)
    have h4 : Real.exp b = Real.exp a * Real.exp (b - a) := by rw [← Real.exp_add]; congr 1; ring
    have h5 := Real.one_le_exp ha
    nlinarith
  have h3 := h2.trans (hmono _ _ (norm_nonneg _) hS)
  have h0 : 0 ≤ (l.map norm).sum := (norm_nonneg _).trans hS
  have h4 := exp_sub_le_half h0
  calc _ = ‖((l.map NormedSpace.exp).prod - 1 - l.sum) - (NormedSpace.exp l.sum - 1 - l.sum)‖ := by congr 1; abel
    _ ≤ _ := (norm_sub_le _ _).trans (by linarith)

end Banach

/-! ## Unitary matrices -/

open scoped Matrix.Norms.L2Operator

variable {d : ℕ}

theorem norm_unitary_le {U : Matrix (Fin d) (Fin d) ℂ} (h : U ∈ unitaryGroup (Fin d) ℂ) : ‖U‖ ≤ 1 := by
  rcases Nat.eq_zero_or_pos d with rfl | hd
  · have : U = 0 := by ext i; exact i.elim0
    rw [this]; simp
  · have : Nonempty (Fin d) := ⟨⟨0, hd⟩⟩
    exact (CStarRing.norm_of_mem_unitary h).le

/-- Errors of the factors add up. -/
theorem norm_prod_sub_pow_le {l : List (Matrix (Fin d) (Fin d) ℂ)} {B : Matrix (Fin d) (Fin d) ℂ} {ε : ℝ}
    (hl : ∀ A ∈ l, A ∈ unitaryGroup (Fin d) ℂ ∧ ‖A - B‖ ≤ ε) (hB : B ∈ unitaryGroup (Fin d) ℂ) :
    ‖l.prod - B ^ l.length‖ ≤ l.length * ε := by
  induction l with
  | nil => simp
  | cons A l ih =>
    have ih := ih fun C hC => hl C (by simp [hC])
    obtain ⟨hA, hAB⟩ := hl A (by simp)
    have hpow := norm_unitary_le (pow_mem hB l.length)
    have hA1 := norm_unitary_le hA
    rw [List.prod_cons, List.length_cons, pow_succ']
    have e : A * l.prod - B * B ^ l.length = A * (l.prod - B ^ l.length) + (A - B) * B ^ l.length := by
      noncomm_ring
    calc _ ≤ ‖A * (l.prod - B ^ l.length)‖ + ‖(A - B) * B ^ l.length‖ := by rw [e]; exact norm_add_le _ _
      _ ≤ 1 * (l.length * ε) + ε * 1 := by
        gcongr
        · exact (norm_mul_le _ _).trans (by gcongr)
        · exact (norm_mul_le _ _).trans (mul_le_mul hAB hpow (norm_nonneg _) ((norm_nonneg _).trans hAB))
      _ = _ := by push_cast; ring

/-- The real part of the normalised trace of `Aᴴ B` differs from one by at most half the square of the operator norm
distance. -/
theorem re_overlap_ge {A B : Matrix (Fin d) (Fin d) ℂ} (hd : 0 < d) (hA : A ∈ unitaryGroup (Fin d) ℂ)
    (hB : B ∈ unitaryGroup (Fin d) ℂ) : 1 - (Aᴴ * B).trace.re / d ≤ ‖A - B‖ ^ 2 / 2 := by
  have hdr : (0 : ℝ) < d := by exact_mod_cast hd
  set W := Aᴴ * B with hW
  have hWu : W ∈ unitaryGroup (Fin d) ℂ := ct_mul_mem hA hB
  have hnorm : ‖1 - W‖ ≤ ‖A - B‖ := by
    have e : 1 - W = Aᴴ * (A - B) := by
      rw [mul_sub, hW, show Aᴴ * A = 1 from mem_unitaryGroup_iff'.mp hA]
    rw [e]
    calc _ ≤ ‖Aᴴ‖ * ‖A - B‖ := norm_mul_le _ _
      _ ≤ 1 * ‖A - B‖ := by
        gcongr
        exact norm_unitary_le (_root_.Unitary.star_mem hA)
      _ = _ := one_mul _
  have hentry : ∀ i, 1 - (W i i).re ≤ ‖A - B‖ ^ 2 / 2 := by
    intro i
    have h1 := Matrix.l2_opNorm_mulVec (1 - W) (WithLp.toLp 2 (Pi.single i 1))
    have h2 : ‖WithLp.toLp 2 ((Pi.single i 1 : Fin d → ℂ))‖ = 1 := by
      rw [EuclideanSpace.norm_eq]; simp [Pi.single_apply, apply_ite]
    rw [h2, mul_one] at h1
    have h3 : ‖WithLp.toLp 2 ((1 - W) *ᵥ (Pi.single i 1 : Fin d → ℂ))‖ ^ 2 = 2 - 2 * (W i i).re := by
      have hcol : ∑ k, ‖W k i‖ ^ 2 = 1 := by
        have h := congrFun (congrFun (show Wᴴ * W = 1 from mem_unitaryGroup_iff'.mp hWu) i) i
        rw [Matrix.mul_apply, Matrix.one_apply_eq] at h
        have h' := congrArg Complex.re h
        rw [Complex.re_sum, Complex.one_re] at h'
        rw [← h']
        refine Finset.sum_congr rfl fun k _ => ?_
        rw [conjTranspose_apply, Complex.star_def, ← Complex.normSq_eq_conj_mul_self, Complex.ofReal_re,
          Complex.normSq_eq_norm_sq]
      rw [EuclideanSpace.norm_sq_eq]
      have hk : ∀ k, ‖((1 - W) *ᵥ (Pi.single i 1 : Fin d → ℂ)) k‖ ^ 2 =
          ‖W k i‖ ^ 2 + (if k = i then 1 - 2 * (W i i).re else 0) := by
        intro k
        rw [Matrix.mulVec_single_one, Matrix.col_apply, Matrix.sub_apply, Matrix.one_apply]
        by_cases hki : k = i
        · subst hki
          rw [if_pos rfl, if_pos rfl, ← Complex.normSq_eq_norm_sq, ← Complex.normSq_eq_norm_sq, Complex.normSq_sub]
          simp
          ring
        · rw [if_neg hki, if_neg hki, zero_sub, norm_neg, add_zero]
      simp only [hk]
      rw [Finset.sum_add_distrib, hcol]
      simp
      ring
    have h4 : ‖WithLp.toLp 2 ((1 - W) *ᵥ (Pi.single i 1 : Fin d → ℂ))‖ ^ 2 ≤ ‖A - B‖ ^ 2 := by
      gcongr
      exact h1.trans hnorm
    linarith
  have htr : (d : ℝ) * (1 - ‖A - B‖ ^ 2 / 2) ≤ W.trace.re := by
    calc (d : ℝ) * (1 - ‖A - B‖ ^ 2 / 2) = ∑ _i : Fin d, (1 - ‖A - B‖ ^ 2 / 2) := by
          rw [Finset.sum_const, Finset.card_univ, Fintype.card_fin, nsmul_eq_mul]
      _ ≤ ∑ i, (W i i).re := Finset.sum_le_sum fun i _ => by linarith [hentry i]
      _ = W.trace.re := by simp [Matrix.trace]
  have : (1 - ‖A - B‖ ^ 2 / 2) ≤ W.trace.re / d := by
    rw [le_div_iff₀ hdr]; linarith
  linarith

/-- For unitary matrices the distance of the library is at most half the square of the operator norm distance. -/
theorem overlap_ge {A B : Matrix (Fin d) (Fin d) ℂ} (hd : 0 < d) (hA : A ∈ unitaryGroup (Fin d) ℂ)
    (hB : B ∈ unitaryGroup (Fin d) ℂ) : 1 - overlap A B ≤ ‖A - B‖ ^ 2 / 2 := by
  have h : (Aᴴ * B).trace.re / d ≤ overlap A B := div_le_div_of_nonneg_right (Complex.re_le_norm _) (Nat.cast_nonneg d)
  linarith [re_overlap_ge hd hA hB]

end Stoq
