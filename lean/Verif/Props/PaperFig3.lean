import Mathlib.Algebra.BigOperators.Fin
import Mathlib.Topology.Algebra.Order.Field
import Mathlib.Topology.Algebra.Monoid
import Mathlib.Tactic.Linarith
import Mathlib.Tactic.FieldSimp
import Mathlib.Tactic.NormNum
import Mathlib.Tactic.Positivity
import Verif.Model.PaperFig3
import Verif.Spec.PaperFidelity

/-!
# C106: the standard deviations compared in figure 3
-/

namespace Stoq

open Paper

namespace Paper

/-- The square of the RAV curve, in terms of `1/N`. -/
theorem radicand_rav {K N l e : ℝ} (hN : 0 < N) :
    (1 / K) * (N / (N * (1 - e) - 1)) ^ 2 * ((1 - l) * (1 - e) + l / N) * (1 - (1 - l) * (1 - e) - l / N) =
      (1 / K) * ((((1 - l) * (1 - e) + l * N⁻¹) * (1 - (1 - l) * (1 - e) - l * N⁻¹)) / (1 - e - N⁻¹) ^ 2) := by
  have h : N / (N * (1 - e) - 1) = (1 - e - N⁻¹)⁻¹ := by
    have : N * (1 - e) - 1 = N * (1 - e - N⁻¹) := by field_simp
    rw [this, div_mul_eq_div_div, div_self hN.ne', one_div]
  rw [h, div_eq_mul_inv l N, div_eq_mul_inv _ ((1 - e - N⁻¹) ^ 2), ← inv_pow]
  ring

/-- The square of the XEB curve with the default power sums, in terms of `1/N`. -/
theorem radicand_xeb {K N l : ℝ} (hN : 0 < N) :
    (1 / K) * (N / (1 / 2 * N - 1)) ^ 2 *
      (1 / 2 * (l / N - (l / N) ^ 2) + 1 / 3 * (1 - l) * (1 - 2 * l / N) - 1 / 4 * (1 - l) ^ 2) =
      (1 / K) * ((4 * (1 / 2 * (l * N⁻¹) * (1 - l * N⁻¹) + 1 / 3 * (1 - l) * (1 - 2 * (l * N⁻¹)) - 1 / 4 * (1 - l) ^ 2)) /
        (1 - 2 * N⁻¹) ^ 2) := by
  have h : N / (1 / 2 * N - 1) = 2 * (1 - 2 * N⁻¹)⁻¹ := by
    have : 1 / 2 * N - 1 = N * ((1 - 2 * N⁻¹) / 2) := by field_simp
    rw [this, div_mul_eq_div_div, div_self hN.ne', one_div, inv_div, div_eq_mul_inv]
  rw [h, div_eq_mul_inv l N, mul_div_assoc 2 l N, div_eq_mul_inv l N, div_eq_mul_inv _ ((1 - 2 * N⁻¹) ^ 2), ← inv_pow]
  ring

/-- The comparison after multiplication with both denominators. -/
theorem compare_identity (l v e : ℝ) :
    4 * (1 / 2 * (l * v) * (1 - l * v) + 1 / 3 * (1 - l) * (1 - 2 * (l * v)) - 1 / 4 * (1 - l) ^ 2) * (1 - e - v) ^ 2 -
      ((1 - l) * (1 - e) + l * v) * (1 - (1 - l) * (1 - e) - l * v) * (1 - 2 * v) ^ 2 =
    l * v * (1 - l * v) * (2 * (1 - e - v) ^ 2 - (1 - 2 * v) ^ 2) +
      (1 - l) * (1 - 2 * (l * v)) * (4 / 3 * (1 - e - v) ^ 2 - (1 - e) * (1 - 2 * v) ^ 2) -
      (1 - l) ^ 2 * ((1 - e - v) ^ 2 - (1 - e) ^ 2 * (1 - 2 * v) ^ 2) := by
  ring

theorem compare_pos {l v e : ℝ} (hl0 : 0 ≤ l) (hl1 : l ≤ 1) (hv : 0 < v) (hv2 : v < 1 / 2) (he0 : 0 ≤ e)
    (he : e ≤ 1 / 4) :
    ((1 - l) * (1 - e) + l * v) * (1 - (1 - l) * (1 - e) - l * v) * (1 - 2 * v) ^ 2 <
      4 * (1 / 2 * (l * v) * (1 - l * v) + 1 / 3 * (1 - l) * (1 - 2 * (l * v)) - 1 / 4 * (1 - l) ^ 2) * (1 - e - v) ^ 2 := by
  rw [← sub_pos, compare_identity]
  have hB : 0 < (1 - 2 * v) ^ 2 := by have : 0 < 1 - 2 * v := by linarith
                                      positivity
  have hA : (1 - e) ^ 2 * (1 - 2 * v) ^ 2 ≤ (1 - e - v) ^ 2 := by
    rw [← mul_pow]
    refine pow_le_pow_left₀ (mul_nonneg (by linarith) (by linarith)) ?_ 2
    nlinarith
  set A := (1 - e - v) ^ 2
  set B := (1 - 2 * v) ^ 2
  have hq : (9 / 16 : ℝ) ≤ (1 - e) ^ 2 := by nlinarith
  have hAB : (9 / 16 : ℝ) * B ≤ A := le_trans (mul_le_mul_of_nonneg_right hq hB.le) hA
  have h1 : 0 < 2 * A - B := by linarith
  have hq3 : (1 - e) * (3 / 4) ≤ (1 - e) ^ 2 := by nlinarith
  have hX : 0 ≤ 4 / 3 * A - (1 - e) * B := by
    nlinarith [mul_le_mul_of_nonneg_right hq3 hB.le]
  have hlv : 0 ≤ l * v := mul_nonneg hl0 hv.le
  have hlv2 : l * v ≤ 1 / 2 := by nlinarith
  have hs : (1 - l) * (1 - l) ≤ (1 - l) * (1 - 2 * (l * v)) :=
    mul_le_mul_of_nonneg_left (by nlinarith) (by linarith)
  have h2 := mul_le_mul_of_nonneg_right hs hX
  have h3 : A - (1 - e) ^ 2 * B ≤ 4 / 3 * A - (1 - e) * B := by
    nlinarith [mul_le_mul_of_nonneg_right hq3 hB.le, mul_nonneg (mul_nonneg he0 (by linarith : (0 : ℝ) ≤ 1 - e)) hB.le]
  have h4 : 0 ≤ l * v * (1 - l * v) * (2 * A - B) :=
    mul_nonneg (mul_nonneg hlv (by linarith)) h1.le
  have h5 := mul_le_mul_of_nonneg_left h3 (sq_nonneg (1 - l))
  rcases hl0.eq_or_lt with rfl | hl
  · have hAs : (1 - e) ^ 2 * B < A := by
      have : ((1 - e) * (1 - 2 * v)) ^ 2 < (1 - e - v) ^ 2 :=
        pow_lt_pow_left₀ (by nlinarith) (mul_nonneg (by linarith) (by linarith)) (by norm_num)
      rwa [mul_pow] at this
    nlinarith [mul_le_mul_of_nonneg_right hq3 hB.le]
  · have h6 : 0 < l * v * (1 - l * v) * (2 * A - B) :=
      mul_pos (mul_pos (mul_pos hl hv) (by linarith)) h1
    nlinarith

/-- The XEB curve is the root of a positive number. -/
theorem xeb_pos {l v : ℝ} (hl0 : 0 ≤ l) (hl1 : l ≤ 1) (hv : 0 < v) (hv2 : v < 1 / 2) :
    0 < 4 * (1 / 2 * (l * v) * (1 - l * v) + 1 / 3 * (1 - l) * (1 - 2 * (l * v)) - 1 / 4 * (1 - l) ^ 2) := by
  have h := compare_pos hl0 hl1 hv hv2 le_rfl (by norm_num)
  have h0 : 0 ≤ ((1 - l) * (1 - 0) + l * v) * (1 - (1 - l) * (1 - 0) - l * v) * (1 - 2 * v) ^ 2 := by
    refine mul_nonneg (mul_nonneg ?_ ?_) (sq_nonneg _)
    · nlinarith [mul_nonneg hl0 hv.le]
    · nlinarith
  exact pos_of_mul_pos_left (h0.trans_lt h) (sq_nonneg _)

/-- The sum over four different outcomes is not negative. -/
theorem four_outcomes {ι : Type} [DecidableEq ι] (p : ι → ℝ) (hp : ∀ i, 0 ≤ p i) (s : Finset ι) :
    0 ≤ ∑ i ∈ s, p i ∧ 0 ≤ (∑ i ∈ s, p i) ^ 2 - ∑ i ∈ s, p i ^ 2 ∧
    0 ≤ (∑ i ∈ s, p i) ^ 3 - 3 * (∑ i ∈ s, p i) * (∑ i ∈ s, p i ^ 2) + 2 * ∑ i ∈ s, p i ^ 3 ∧
    0 ≤ (∑ i ∈ s, p i) ^ 4 - 6 * (∑ i ∈ s, p i) ^ 2 * (∑ i ∈ s, p i ^ 2) + 3 * (∑ i ∈ s, p i ^ 2) ^ 2 +
      8 * (∑ i ∈ s, p i) * (∑ i ∈ s, p i ^ 3) - 6 * ∑ i ∈ s, p i ^ 4 := by
  induction s using Finset.induction_on with
  | empty => simp
  | insert a s ha ih =>
    obtain ⟨h1, h2, h3, h4⟩ := ih
    simp only [Finset.sum_insert ha]
    have ha0 := hp a
    refine ⟨add_nonneg ha0 h1, ?_, ?_, ?_⟩
    · linear_combination h2 + 2 * mul_nonneg ha0 h1
    · linear_combination h3 + 3 * mul_nonneg ha0 h2
    · linear_combination h4 + 4 * mul_nonneg ha0 h3

end Paper

/-- C106: for every dimension above 2 and every error of the gates the numbers under the roots are positive, so that no
value is `nan`; the squares of the two curves. -/
theorem C106_defined {K N l e : ℝ} (hK : 0 < K) (hN : 2 < N) (hl0 : 0 ≤ l) (hl1 : l ≤ 1) (he0 : 0 < e)
    (he : e ≤ 1 / 4) :
    0 < stdFRav K N l e ∧ 0 < stdFXeb K N l ∧
    stdFRav K N l e ^ 2 =
      ((1 - l) * (1 - e) + l / N) * (1 - ((1 - l) * (1 - e) + l / N)) / (K * (1 - e - 1 / N) ^ 2) ∧
    stdFXeb K N l ^ 2 =
      ((l / N - (l / N) ^ 2) / 2 + (1 - l) * (1 - 2 * (l / N)) / 3 - (1 - l) ^ 2 / 4) / (K * (1 / 2 - 1 / N) ^ 2) := by
  have hN0 : 0 < N := by linarith
  have hv : 0 < N⁻¹ := inv_pos.mpr hN0
  have hv2 : N⁻¹ < 1 / 2 := by
    rw [one_div]
    exact inv_strictAnti₀ (by norm_num) hN
  have hd : 0 < 1 - e - N⁻¹ := by linarith
  have hd2 : 0 < 1 - 2 * N⁻¹ := by linarith
  have hx := xeb_pos hl0 hl1 hv hv2
  have hp1 : 0 < (1 - l) * (1 - e) + l * N⁻¹ := by
    rcases hl0.eq_or_lt with rfl | hl
    · nlinarith
    · nlinarith [mul_pos hl hv]
  have hp2 : 0 < 1 - (1 - l) * (1 - e) - l * N⁻¹ := by
    rcases hl0.eq_or_lt with rfl | hl
    · nlinarith
    · nlinarith [mul_pos hl (by linarith : 0 < 1 - N⁻¹)]
  have hr : 0 < (1 / K) * ((((1 - l) * (1 - e) + l * N⁻¹) * (1 - (1 - l) * (1 - e) - l * N⁻¹)) / (1 - e - N⁻¹) ^ 2) :=
    by positivity
  have hx' := mul_pos (one_div_pos.mpr hK) (div_pos hx (pow_pos hd2 2))
  unfold stdFRav stdFXeb
  rw [radicand_rav hN0, radicand_xeb hN0]
  refine ⟨Real.sqrt_pos.mpr hr, Real.sqrt_pos.mpr hx', ?_, ?_⟩
  · rw [Real.sq_sqrt hr.le, one_div N, div_eq_mul_inv l N, ← sub_sub]
    have := (pow_pos hd 2).ne'
    generalize (1 - e - N⁻¹) ^ 2 = A at *
    field_simp
  · rw [Real.sq_sqrt hx'.le, one_div N, div_eq_mul_inv l N]
    have h4 : (1 / 2 - N⁻¹) ^ 2 = (1 - 2 * N⁻¹) ^ 2 / 4 := by ring
    rw [h4]
    have := (pow_pos hd2 2).ne'
    generalize (1 - 2 * N⁻¹) ^ 2 = B at *
    field_simp

/-- C106: as long as the inverse is compiled to a distance for which the return probability is at least 3/4, RAV is
more precise than XEB in figure 3: for every number of shots, dimension and error. -/
theorem C106_below {K N l e : ℝ} (hK : 0 < K) (hN : 2 < N) (hl0 : 0 ≤ l) (hl1 : l ≤ 1) (he0 : 0 ≤ e)
    (he : e ≤ 1 / 4) : stdFRav K N l e < stdFXeb K N l := by
  have hN0 : 0 < N := by linarith
  have hv : 0 < N⁻¹ := inv_pos.mpr hN0
  have hv2 : N⁻¹ < 1 / 2 := by
    rw [one_div]
    exact inv_strictAnti₀ (by norm_num) hN
  have hd : 0 < 1 - e - N⁻¹ := by linarith
  have hd2 : 0 < 1 - 2 * N⁻¹ := by linarith
  unfold stdFRav stdFXeb
  rw [radicand_rav hN0, radicand_xeb hN0]
  refine Real.sqrt_lt_sqrt ?_ (mul_lt_mul_of_pos_left ?_ (one_div_pos.mpr hK))
  · refine mul_nonneg (one_div_pos.mpr hK).le (div_nonneg (mul_nonneg ?_ ?_) (sq_nonneg _))
    · nlinarith [mul_nonneg hl0 hv.le]
    · nlinarith
  · rw [div_lt_div_iff₀ (pow_pos hd 2) (pow_pos hd2 2)]
    exact compare_pos hl0 hl1 hv hv2 he0 he

/-- C106: the bound 1/4 cannot be improved: for a larger error of the compilation, and whatever the error of the gates,
XEB is more precise for all large dimensions. -/
theorem C106_not_below {K l e : ℝ} (hK : 0 < K) (hl0 : 0 ≤ l) (hl1 : l < 1) (he0 : 1 / 4 < e) (he : e < 1) :
    ∀ᶠ N in Filter.atTop, stdFXeb K N l < stdFRav K N l e := by
  have hc : Continuous fun v : ℝ =>
      4 * (1 / 2 * (l * v) * (1 - l * v) + 1 / 3 * (1 - l) * (1 - 2 * (l * v)) - 1 / 4 * (1 - l) ^ 2) * (1 - e - v) ^ 2 -
      ((1 - l) * (1 - e) + l * v) * (1 - (1 - l) * (1 - e) - l * v) * (1 - 2 * v) ^ 2 := by fun_prop
  have ht := (hc.tendsto 0).comp (tendsto_inv_atTop_zero (𝕜 := ℝ))
  have h0 : 4 * (1 / 2 * (l * 0) * (1 - l * 0) + 1 / 3 * (1 - l) * (1 - 2 * (l * 0)) - 1 / 4 * (1 - l) ^ 2) *
      (1 - e - 0) ^ 2 - ((1 - l) * (1 - e) + l * 0) * (1 - (1 - l) * (1 - e) - l * 0) * (1 - 2 * 0) ^ 2 < 0 := by
    have h : 4 * (1 / 2 * (l * 0) * (1 - l * 0) + 1 / 3 * (1 - l) * (1 - 2 * (l * 0)) - 1 / 4 * (1 - l) ^ 2) *
      (1 - e - 0) ^ 2 - ((1 - l) * (1 - e) + l * 0) * (1 - (1 - l) * (1 - e) - l * 0) * (1 - 2 * 0) ^ 2 =
      -((1 - l) * (1 - e) * (1 - 4 / 3 * (1 - e))) := by ring
    rw [h, neg_lt_zero]
    exact mul_pos (mul_pos (by linarith) (by linarith)) (by linarith)
  have hneg := ht.eventually_lt_const h0
  have hbig : ∀ᶠ N : ℝ in Filter.atTop, N⁻¹ < 1 - e :=
    (tendsto_inv_atTop_zero (𝕜 := ℝ)).eventually_lt_const (by linarith)
  filter_upwards [hneg, hbig, Filter.eventually_gt_atTop 2] with N h1 h2 hN
  have hN0 : 0 < N := by linarith
  have hv : 0 < N⁻¹ := inv_pos.mpr hN0
  have hv2 : N⁻¹ < 1 / 2 := by
    rw [one_div]
    exact inv_strictAnti₀ (by norm_num) hN
  have hd : 0 < 1 - e - N⁻¹ := by linarith
  have hd2 : 0 < 1 - 2 * N⁻¹ := by linarith
  unfold stdFRav stdFXeb
  rw [radicand_rav hN0, radicand_xeb hN0]
  refine Real.sqrt_lt_sqrt ?_ (mul_lt_mul_of_pos_left ?_ (one_div_pos.mpr hK))
  · exact mul_nonneg (one_div_pos.mpr hK).le (div_nonneg (xeb_pos hl0 hl1.le hv hv2).le (sq_nonneg _))
  · rw [div_lt_div_iff₀ (pow_pos hd2 2) (pow_pos hd 2)]
    exact sub_neg.mp h1

/-- C106: the power sums 1/2, 1/3 and 1/4 which the XEB curve of the figure assumes belong to no probability
distribution, whatever the number of outcomes. -/
theorem C106_no_distribution {D : ℕ} {p : Fin D → ℝ} (h : IsDistribution p) :
    ¬ (∑ x, p x ^ 2 = 1 / 2 ∧ ∑ x, p x ^ 3 = 1 / 3 ∧ ∑ x, p x ^ 4 = 1 / 4) := by
  rintro ⟨h2, h3, h4⟩
  have h' := (four_outcomes p h.1 Finset.univ).2.2.2
  rw [h.2, h2, h3, h4] at h'
  norm_num at h'

/-- C106: the figure has 100 points in each panel, from 2 to 15 qubits, and at each of them the RAV value is positive and
below the XEB value, which is below the upper end 0.15 of the axis.  The values are those of 100 shots in the dimension `2^n`. -/
theorem C106_figure {l : ℝ} (hl : l ∈ fig3Lambdas) :
    (fig3Panel l).length = 100 ∧
    ((fig3Panel l).map Prod.fst).head? = some 2 ∧ ((fig3Panel l).map Prod.fst).getLast? = some 15 ∧
    ∀ q ∈ fig3Panel l, 2 ≤ q.1 ∧ q.1 ≤ 15 ∧ q.2.1 = stdFRav 100 ((2 : ℝ) ^ q.1) l 0.04 ∧ q.2.2 = stdFXeb 100 ((2 : ℝ) ^ q.1) l ∧
      0 < q.2.1 ∧ q.2.1 < q.2.2 ∧ q.2.2 < 0.15 := by
  have hl01 : 0 ≤ l ∧ l ≤ 1 := by
    simp only [fig3Lambdas, List.mem_cons, List.not_mem_nil, or_false] at hl
    rcases hl with rfl | rfl | rfl | rfl | rfl <;> norm_num
  have hfst : (fig3Panel l).map Prod.fst = fig3Qubits := by
    simp [fig3Panel, List.map_map, Function.comp_def]
  refine ⟨by simp [fig3Panel, fig3Qubits, linspace], ?_, ?_, fun q hq => ?_⟩
  · rw [hfst, fig3Qubits, linspace]
    simp [List.head?_range]
  · rw [hfst, fig3Qubits, linspace]
    simp only [List.getLast?_map, List.getLast?_range]
    norm_num
  · obtain ⟨n, hn, rfl⟩ := List.mem_map.mp hq
    obtain ⟨i, hi, rfl⟩ := List.mem_map.mp hn
    have hi : (i : ℝ) ≤ 99 := by
      have := List.mem_range.mp hi
      exact_mod_cast Nat.le_of_lt_succ this
    have hi0 : (0 : ℝ) ≤ i := Nat.cast_nonneg i
    set n : ℝ := 2 + i * ((15 - 2) / ((100 : ℕ) - 1)) with hndef
    have hn2 : 2 ≤ n := by
      rw [hndef]
      push_cast
      linarith
    have hn15 : n ≤ 15 := by
      rw [hndef]
      push_cast
      linarith
    have hN : (4 : ℝ) ≤ 2 ^ n := by
      calc (4 : ℝ) = 2 ^ (2 : ℝ) := by norm_num
        _ ≤ 2 ^ n := Real.rpow_le_rpow_of_exponent_le (by norm_num) hn2
    have hK : (0 : ℝ) < fig3Shots := by norm_num [fig3Shots]
    have he : 0 < epsDefault ∧ epsDefault ≤ 1 / 4 := by norm_num [epsDefault]
    obtain ⟨h1, h2, -, h4⟩ := C106_defined hK (by linarith : (2 : ℝ) < 2 ^ n) hl01.1 hl01.2 he.1 he.2
    refine ⟨hn2, hn15, rfl, rfl, h1, C106_below hK (by linarith) hl01.1 hl01.2 he.1.le he.2, ?_⟩
    refine lt_of_pow_lt_pow_left₀ 2 (by norm_num) (h4.trans_lt ?_)
    rw [div_eq_mul_inv l]
    have hv : 0 < ((2 : ℝ) ^ n)⁻¹ := by positivity
    have hv4 : ((2 : ℝ) ^ n)⁻¹ ≤ 1 / 4 := by
      rw [one_div]
      exact inv_anti₀ (by norm_num) hN
    rw [one_div ((2 : ℝ) ^ n)]
    generalize ((2 : ℝ) ^ n)⁻¹ = v at hv hv4
    rw [div_lt_iff₀ (mul_pos hK (pow_pos (by linarith) 2)), fig3Shots]
    have hB : (1 / 16 : ℝ) ≤ (1 / 2 - v) ^ 2 := by nlinarith
    have hg : (l * v - (l * v) ^ 2) / 2 + (1 - l) * (1 - 2 * (l * v)) / 3 - (1 - l) ^ 2 / 4 < 9 / 64 := by
      have h5 := mul_nonneg hl01.1 hv.le
      have h6 : l * v ≤ l / 4 := by nlinarith
      nlinarith [sq_nonneg (l - 1 / 2), sq_nonneg (l * v), mul_nonneg hl01.1 (sub_nonneg.mpr hv4),
        mul_nonneg (mul_nonneg hl01.1 hl01.1) (sub_nonneg.mpr hv4), mul_nonneg h5 (sub_nonneg.mpr hl01.2)]
    nlinarith

/-- The hypotheses of the comparison hold for the first point of the panel for `λ = 0.5`: 4 outcomes and 100 shots. -/
example : stdFRav 100 4 0.5 0.04 < stdFXeb 100 4 0.5 :=
  C106_below (by norm_num) (by norm_num) (by norm_num) (by norm_num) (by norm_num) (by norm_num)

/-- There `C106_below` is not about two zeros. -/
example : stdFRav 100 4 1 0.04 ^ 2 = 0.1875 / 50.41 ∧ stdFXeb 100 4 1 ^ 2 = 0.015 := by
  obtain ⟨-, -, h1, h2⟩ := C106_defined (K := 100) (N := 4) (l := 1) (e := 0.04) (by norm_num) (by norm_num) (by norm_num)
    (by norm_num) (by norm_num) (by norm_num)
  rw [h1, h2]
  norm_num

/-- An error of the compilation of 1/2 is too large. -/
example : ∀ᶠ N in Filter.atTop, stdFXeb 100 N 0.5 < stdFRav 100 N 0.5 0.5 :=
  C106_not_below (by norm_num) (by norm_num) (by norm_num) (by norm_num) (by norm_num)

/-- The first power sum alone is possible: it is that of two equally likely outcomes. -/
example : IsDistribution (fun _ : Fin 2 => (1 / 2 : ℝ)) ∧ ∑ _x : Fin 2, (1 / 2 : ℝ) ^ 2 = 1 / 2 := by
  refine ⟨⟨fun _ => by norm_num, ?_⟩, ?_⟩ <;> norm_num [Fin.sum_univ_two]

example : (0.25 : ℝ) ∈ fig3Lambdas := by simp [fig3Lambdas]

end Stoq
