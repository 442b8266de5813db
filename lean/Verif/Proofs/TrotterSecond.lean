import Verif.Proofs.QdriftMean

/-! # Products of exponentials to second order, and powers of matrices that are nearly unitary -/

namespace Stoq

open Matrix
open scoped Matrix.Norms.L2Operator

/-! ## Products of exponentials -/

theorem exp_sub_le_sixth {x : ℝ} (hx : 0 ≤ x) : Real.exp x - 1 - x - x ^ 2 / 2 ≤ x ^ 3 / 6 * Real.exp x := by
  have h1 := NormedSpace.exp_series_hasSum_exp' (𝕂 := ℝ) x
  have h2 := h1.mul_left (x ^ 3 / 6)
  rw [← hasSum_nat_add_iff' 3] at h1
  simp only [Finset.sum_range_succ, Finset.range_zero, Finset.sum_empty] at h1
  have h3 := hasSum_le (fun n => ?_) h1 h2
  · rw [Real.exp_eq_exp_ℝ]
    refine le_trans (le_of_eq ?_) h3
    simp [Nat.factorial]
    ring
  · simp only [smul_eq_mul]
    have hf : (6 : ℝ) * (n.factorial : ℝ) ≤ ((n + 3).factorial : ℝ) := by
      have : 6 * n.factorial ≤ (n + 3).factorial := by
        have := Nat.factorial_mul_factorial_dvd_factorial_add n 3
        have h3 := Nat.le_of_dvd (Nat.factorial_pos _) this
        rw [mul_comm]
        exact h3
      exact_mod_cast this
    have hp : (0 : ℝ) < n.factorial := by exact_mod_cast Nat.factorial_pos n
    calc ((n + 3).factorial : ℝ)⁻¹ * x ^ (n + 3) ≤ (6 * (n.factorial : ℝ))⁻¹ * x ^ (n + 3) := by gcongr
      _ = _ := by rw [pow_add]; field_simp

theorem exp_sub_mono {a b : ℝ} (ha : 0 ≤ a) (hab : a ≤ b) :
    Real.exp a - 1 - a - a ^ 2 / 2 ≤ Real.exp b - 1 - b - b ^ 2 / 2 := by
  have h1 : Real.exp b = Real.exp a * Real.exp (b - a) := by rw [← Real.exp_add]; congr 1; ring
  have h2 := Real.quadratic_le_exp_of_nonneg (sub_nonneg.mpr hab)
  have h3 := Real.add_one_le_exp a
  nlinarith [mul_nonneg (sub_nonneg.mpr hab) (sub_nonneg.mpr hab), sub_nonneg.mpr hab,
    mul_nonneg (sub_nonneg.mpr h3) (sub_nonneg.mpr hab),
    mul_nonneg (show 0 ≤ Real.exp a - 1 by linarith) (mul_nonneg (sub_nonneg.mpr hab) (sub_nonneg.mpr hab)),
    mul_le_mul_of_nonneg_left h2 (Real.exp_pos a).le]

variable {d : ℕ}

theorem norm_exp_sub_second_le (x : Matrix (Fin d) (Fin d) ℂ) :
    ‖NormedSpace.exp x - 1 - x - (1 / 2 : ℝ) • x ^ 2‖ ≤ Real.exp ‖x‖ - 1 - ‖x‖ - ‖x‖ ^ 2 / 2 := by
  have h1 := NormedSpace.exp_series_hasSum_exp' (𝕂 := ℝ) x
  have h2 := NormedSpace.exp_series_hasSum_exp' (𝕂 := ℝ) ‖x‖
  rw [← hasSum_nat_add_iff' 3] at h1 h2
  simp only [Finset.sum_range_succ, Finset.range_zero, Finset.sum_empty] at h1 h2
  have e1 : NormedSpace.exp x - 1 - x - (1 / 2 : ℝ) • x ^ 2 = ∑' n : ℕ, (((n + 3).factorial : ℝ)⁻¹ • x ^ (n + 3)) := by
    rw [h1.tsum_eq]
    simp only [Nat.factorial, pow_zero, pow_one, zero_add, Nat.cast_one, inv_one, one_smul, mul_one,
      one_div]
    abel
  have e2 : Real.exp ‖x‖ - 1 - ‖x‖ - ‖x‖ ^ 2 / 2 = NormedSpace.exp ‖x‖ -
      (0 + ((0 : ℕ).factorial : ℝ)⁻¹ • ‖x‖ ^ 0 + ((1 : ℕ).factorial : ℝ)⁻¹ • ‖x‖ ^ 1 +
        ((2 : ℕ).factorial : ℝ)⁻¹ • ‖x‖ ^ 2) := by
    rw [Real.exp_eq_exp_ℝ]
    simp [Nat.factorial]
    ring
  rw [e1, e2]
  refine tsum_of_norm_bounded h2 fun n => ?_
  rw [norm_smul, smul_eq_mul]
  gcongr
  · simp
  · exact norm_pow_le' x (by omega)

/-- The terms of second order of a product of exponentials. -/
noncomputable def secondOrder : List (Matrix (Fin d) (Fin d) ℂ) → Matrix (Fin d) (Fin d) ℂ
  | [] => 0
  | x :: l => (1 / 2 : ℝ) • x ^ 2 + x * l.sum + secondOrder l

theorem secondOrder_concat (l : List (Matrix (Fin d) (Fin d) ℂ)) (y : Matrix (Fin d) (Fin d) ℂ) :
    secondOrder (l ++ [y]) = secondOrder l + l.sum * y + (1 / 2 : ℝ) • y ^ 2 := by
  induction l with
  | nil => simp [secondOrder]
  | cons x l ih =>
    simp only [List.cons_append, secondOrder, ih, List.sum_append, List.sum_cons, List.sum_nil, add_zero, mul_add, add_mul]
    abel

/-- Together with those of the reversed product they are the square of the sum. -/
theorem secondOrder_reverse (l : List (Matrix (Fin d) (Fin d) ℂ)) :
    secondOrder l + secondOrder l.reverse = l.sum ^ 2 := by
  induction l with
  | nil => simp [secondOrder]
  | cons x l ih =>
    rw [List.reverse_cons, secondOrder_concat, secondOrder, List.sum_reverse, List.sum_cons]
    have h : (1 / 2 : ℝ) • x ^ 2 + x * l.sum + secondOrder l + (secondOrder l.reverse + l.sum * x + (1 / 2 : ℝ) • x ^ 2) =
        ((1 / 2 : ℝ) • x ^ 2 + (1 / 2 : ℝ) • x ^ 2) + x * l.sum + l.sum * x + (secondOrder l + secondOrder l.reverse) := by abel
    rw [h, ih, ← add_smul]
    norm_num
    noncomm_ring

theorem norm_sum_le' (l : List (Matrix (Fin d) (Fin d) ℂ)) : ‖l.sum‖ ≤ (l.map norm).sum := by
  induction l with
  | nil => simp
  | cons y l ih => rw [List.sum_cons, List.map_cons, List.sum_cons]; exact (norm_add_le _ _).trans (by gcongr)

theorem norm_secondOrder_le (l : List (Matrix (Fin d) (Fin d) ℂ)) : ‖secondOrder l‖ ≤ (l.map norm).sum ^ 2 / 2 := by
  induction l with
  | nil => simp [secondOrder]
  | cons x l ih =>
    rw [secondOrder, List.map_cons, List.sum_cons]
    have h1 : ‖(1 / 2 : ℝ) • x ^ 2‖ ≤ ‖x‖ ^ 2 / 2 := by
      rw [norm_smul, Real.norm_of_nonneg (by norm_num)]
      have := norm_pow_le' x (n := 2) (by norm_num)
      linarith
    have h2 : ‖x * l.sum‖ ≤ ‖x‖ * (l.map norm).sum :=
      (norm_mul_le _ _).trans (mul_le_mul_of_nonneg_left (norm_sum_le' l) (norm_nonneg _))
    calc _ ≤ ‖x‖ ^ 2 / 2 + ‖x‖ * (l.map norm).sum + (l.map norm).sum ^ 2 / 2 :=
          (norm_add_le _ _).trans (add_le_add ((norm_add_le _ _).trans (add_le_add h1 h2)) ih)
      _ = _ := by ring

theorem norm_prod_exp_sub_second_le [NormOneClass (Matrix (Fin d) (Fin d) ℂ)] (l : List (Matrix (Fin d) (Fin d) ℂ)) :
    ‖(l.map NormedSpace.exp).prod - 1 - l.sum - secondOrder l‖ ≤
      Real.exp (l.map norm).sum - 1 - (l.map norm).sum - (l.map norm).sum ^ 2 / 2 := by
  induction l with
  | nil => simp [secondOrder]
  | cons x l ih =>
    have hx := norm_exp_sub_second_le x
    have hx1 := norm_exp_sub_le x
    have hx0 := norm_exp_le x
    have hx2 : ‖NormedSpace.exp x - 1‖ ≤ Real.exp ‖x‖ - 1 := by
      calc _ = ‖(NormedSpace.exp x - 1 - x) + x‖ := by congr 1; abel
        _ ≤ _ := (norm_add_le _ _).trans (by linarith)
    have hS := norm_sum_le' l
    have hQ := norm_secondOrder_le l
    simp only [List.map_cons, List.prod_cons, List.sum_cons, secondOrder]
    generalize (l.map NormedSpace.exp).prod = P at ih
    generalize l.sum = S at ih hS
    generalize secondOrder l = Q at ih hQ
    generalize (l.map norm).sum = s at ih hS hQ
    have e : NormedSpace.exp x * P - 1 - (x + S) - ((1 / 2 : ℝ) • x ^ 2 + x * S + Q) =
        NormedSpace.exp x * (P - 1 - S - Q) + (NormedSpace.exp x - 1 - x - (1 / 2 : ℝ) • x ^ 2) +
          (NormedSpace.exp x - 1 - x) * S + (NormedSpace.exp x - 1) * Q := by
      noncomm_ring
    have h1 := (norm_mul_le (NormedSpace.exp x) (P - 1 - S - Q)).trans (mul_le_mul hx0 ih (norm_nonneg _) (Real.exp_pos _).le)
    have h2 := (norm_mul_le (NormedSpace.exp x - 1 - x) S).trans (mul_le_mul hx1 hS (norm_nonneg _) ((norm_nonneg _).trans hx1))
    have h3 := (norm_mul_le (NormedSpace.exp x - 1) Q).trans (mul_le_mul hx2 hQ (norm_nonneg _) ((norm_nonneg _).trans hx2))
    rw [e]
    calc _ ≤ Real.exp ‖x‖ * (Real.exp s - 1 - s - s ^ 2 / 2) + (Real.exp ‖x‖ - 1 - ‖x‖ - ‖x‖ ^ 2 / 2) +
          (Real.exp ‖x‖ - 1 - ‖x‖) * s + (Real.exp ‖x‖ - 1) * (s ^ 2 / 2) :=
        (norm_add_le _ _).trans (add_le_add ((norm_add_le _ _).trans (add_le_add ((norm_add_le _ _).trans (add_le_add h1 hx)) h2)) h3)
      _ = _ := by rw [Real.exp_add]; ring

/-- The mean of a product of exponentials and the reversed product agrees with the exponential of the sum to second
order. -/
theorem norm_prod_exp_reverse_le [NormOneClass (Matrix (Fin d) (Fin d) ℂ)] (l : List (Matrix (Fin d) (Fin d) ℂ)) {x : ℝ}
    (hx : (l.map norm).sum = x) :
    ‖(1 / 2 : ℝ) • ((l.map NormedSpace.exp).prod + (l.reverse.map NormedSpace.exp).prod) - NormedSpace.exp l.sum‖ ≤
      x ^ 3 / 3 * Real.exp x := by
  have hx0 : 0 ≤ x := by rw [← hx]; exact (norm_nonneg _).trans (norm_sum_le' l)
  have h1 := norm_prod_exp_sub_second_le l
  have h2 := norm_prod_exp_sub_second_le l.reverse
  rw [show (l.reverse.map norm).sum = (l.map norm).sum by rw [List.map_reverse, List.sum_reverse], List.sum_reverse] at h2
  have h3 := (norm_exp_sub_second_le l.sum).trans (exp_sub_mono (norm_nonneg _) (norm_sum_le' l))
  rw [hx] at h1 h2 h3
  have h4 := exp_sub_le_sixth hx0
  have h5 := secondOrder_reverse l
  generalize (l.map NormedSpace.exp).prod = P at *
  generalize (l.reverse.map NormedSpace.exp).prod = P' at *
  generalize l.sum = S at *
  generalize secondOrder l.reverse = Q' at *
  generalize secondOrder l = Q at *
  have e : (1 / 2 : ℝ) • (P + P') - NormedSpace.exp S = (1 / 2 : ℝ) • (P - 1 - S - Q) + (1 / 2 : ℝ) • (P' - 1 - S - Q') -
      (NormedSpace.exp S - 1 - S - (1 / 2 : ℝ) • S ^ 2) := by
    rw [← h5]
    module
  rw [e]
  have h6 : ‖(1 / 2 : ℝ) • (P - 1 - S - Q)‖ ≤ 1 / 2 * (Real.exp x - 1 - x - x ^ 2 / 2) := by
    rw [norm_smul, Real.norm_of_nonneg (by norm_num)]; gcongr
  have h7 : ‖(1 / 2 : ℝ) • (P' - 1 - S - Q')‖ ≤ 1 / 2 * (Real.exp x - 1 - x - x ^ 2 / 2) := by
    rw [norm_smul, Real.norm_of_nonneg (by norm_num)]; gcongr
  have h8 := (norm_sub_le ((1 / 2 : ℝ) • (P - 1 - S - Q) + (1 / 2 : ℝ) • (P' - 1 - S - Q'))
    (NormedSpace.exp S - 1 - S - (1 / 2 : ℝ) • S ^ 2)).trans (add_le_add_left (norm_add_le _ _) _)
  linarith

/-! ## Powers of a matrix close to a unitary one -/

/-- The normalised trace is bounded by the norm. -/
theorem re_trace_le (hd : 0 < d) (A : Matrix (Fin d) (Fin d) ℂ) : (A.trace).re / d ≤ ‖A‖ := by
  have h := overlap_sub_le hd (T := 1) (A := 0) (B := A) (one_mem _)
  unfold overlap at h
  simp only [conjTranspose_one, Matrix.one_mul, trace_zero, norm_zero, zero_div, sub_zero, zero_sub, norm_neg] at h
  exact (div_le_div_of_nonneg_right (Complex.re_le_norm _) (Nat.cast_nonneg d)).trans h

/-- The overlap of powers: if `M` is within `μ` of the unitary `V` and its real overlap with `V` is at least `1 - σ`, the
`N`-th powers have a real overlap of at least `1 - N σ - N (N - 1) / 2 μ²`. -/
theorem power_overlap (hd : 0 < d) {V M : Matrix (Fin d) (Fin d) ℂ} (hV : V ∈ unitaryGroup (Fin d) ℂ) (hM : ‖M‖ ≤ 1) {μ σ : ℝ}
    (hμ : ‖M - V‖ ≤ μ) (hσ : 1 - (Vᴴ * M).trace.re / d ≤ σ) (N : ℕ) :
    1 - ((V ^ N)ᴴ * M ^ N).trace.re / d ≤ N * σ + N * (N - 1) / 2 * μ ^ 2 := by
  have hdr : (d : ℝ) ≠ 0 := by exact_mod_cast hd.ne'
  have hμ0 : 0 ≤ μ := (norm_nonneg _).trans hμ
  have hVV : Vᴴ * V = 1 := mem_unitaryGroup_iff'.mp hV
  induction N with
  | zero => simp [hdr]
  | succ k ih =>
    have hk : V ^ k ∈ unitaryGroup (Fin d) ℂ := pow_mem hV k
    have hkk : (V ^ k)ᴴ * V ^ k = 1 := mem_unitaryGroup_iff'.mp hk
    have e : (V ^ (k + 1))ᴴ * M ^ (k + 1) = Vᴴ * ((V ^ k)ᴴ * M ^ k * V) + Vᴴ * ((V ^ k)ᴴ * (M ^ k - V ^ k)) * (M - V) +
        (Vᴴ * M - 1) := by
      rw [pow_succ, pow_succ, conjTranspose_mul]
      have : Vᴴ * M - 1 = Vᴴ * ((V ^ k)ᴴ * V ^ k) * (M - V) := by
        rw [hkk, Matrix.mul_one, Matrix.mul_sub, hVV]
      rw [this]
      noncomm_ring
    have e1 : (Vᴴ * ((V ^ k)ᴴ * M ^ k * V)).trace = ((V ^ k)ᴴ * M ^ k).trace := by
      rw [trace_mul_comm, Matrix.mul_assoc, show V * Vᴴ = 1 from mem_unitaryGroup_iff.mp hV, Matrix.mul_one]
    have hpow := norm_pow_sub_pow_le hM (norm_unitary_le hV) k
    have hbound : -((Vᴴ * ((V ^ k)ᴴ * (M ^ k - V ^ k)) * (M - V)).trace.re / d) ≤ k * μ * μ := by
      have h := re_trace_le hd (-(Vᴴ * ((V ^ k)ᴴ * (M ^ k - V ^ k)) * (M - V)))
      rw [trace_neg, Complex.neg_re, neg_div, norm_neg] at h
      refine h.trans ((norm_mul_le _ _).trans (mul_le_mul ?_ hμ (norm_nonneg _) (by positivity)))
      refine (norm_mul_le _ _).trans ((mul_le_mul_of_nonneg_right (norm_unitary_le (Unitary.star_mem hV)) (norm_nonneg _)).trans ?_)
      rw [one_mul]
      refine (norm_mul_le _ _).trans ((mul_le_mul_of_nonneg_right (norm_unitary_le (Unitary.star_mem hk)) (norm_nonneg _)).trans ?_)
      rw [one_mul]
      exact hpow.trans (mul_le_mul_of_nonneg_left hμ (Nat.cast_nonneg k))
    rw [e, trace_add, trace_add, e1, trace_sub, trace_one, Complex.add_re, Complex.add_re, Complex.sub_re, add_div, add_div, sub_div,
      Fintype.card_fin, Complex.natCast_re, div_self hdr]
    push_cast
    nlinarith

end Stoq
