import Verif.Proofs.Machine

/-! # Rounding to double precision -/

namespace Stoq

/-- The multiple of `2 ^ binary64Exp x` that `binary64` takes. -/
noncomputable def binary64Int (x : ℝ) : ℤ :=
  let y := x / 2 ^ binary64Exp x
  if Int.fract y < 1 / 2 ∨ (Int.fract y = 1 / 2 ∧ Even ⌊y⌋) then ⌊y⌋ else ⌊y⌋ + 1

theorem binary64_eq (x : ℝ) : binary64 x = binary64Int x * 2 ^ binary64Exp x := rfl

theorem zpow_pos' (e : ℤ) : (0 : ℝ) < 2 ^ e := by positivity

/-- It is a nearest integer. -/
theorem binary64Int_near (x : ℝ) : |(binary64Int x : ℝ) - x / 2 ^ binary64Exp x| ≤ 1 / 2 := by
  unfold binary64Int
  set y := x / 2 ^ binary64Exp x
  have h1 := Int.floor_add_fract y
  have h0 := Int.fract_nonneg y
  have h2 := Int.fract_lt_one y
  simp only
  split_ifs with h
  · have : Int.fract y ≤ 1 / 2 := by
      rcases h with h | h
      · exact h.le
      · exact h.1.le
    rw [abs_le]; constructor <;> linarith
  · push Not at h
    push_cast
    rw [abs_le]; constructor <;> linarith [h.1]

/-- No integer is closer. -/
theorem binary64Int_nearest (x : ℝ) (m : ℤ) :
    |(binary64Int x : ℝ) - x / 2 ^ binary64Exp x| ≤ |(m : ℝ) - x / 2 ^ binary64Exp x| := by
  have h := binary64Int_near x
  set y := x / 2 ^ binary64Exp x
  by_cases hm : m = binary64Int x
  · rw [hm]
  · have h1 : (1 : ℝ) ≤ |(m : ℝ) - binary64Int x| := by
      have : 1 ≤ |m - binary64Int x| := Int.one_le_abs (sub_ne_zero.mpr hm)
      exact_mod_cast this
    have h2 : |(m : ℝ) - binary64Int x| ≤ |(m : ℝ) - y| + |(binary64Int x : ℝ) - y| := by
      rw [abs_sub_comm (binary64Int x : ℝ)]; exact abs_sub_le _ _ _
    linarith

theorem binary64_sub (x : ℝ) (z : ℝ) :
    |z * 2 ^ binary64Exp x - x| = |z - x / 2 ^ binary64Exp x| * 2 ^ binary64Exp x := by
  have hp := zpow_pos' (binary64Exp x)
  rw [← abs_of_pos hp, ← abs_mul, abs_of_pos hp, sub_mul, div_mul_cancel₀ _ hp.ne']

/-- The error is at most half of the last digit. -/
theorem binary64_half (x : ℝ) : |binary64 x - x| ≤ 2 ^ binary64Exp x / 2 := by
  rw [binary64_eq, binary64_sub]
  have := mul_le_mul_of_nonneg_right (binary64Int_near x) (zpow_pos' (binary64Exp x)).le
  linarith

theorem zpow_log_le (x : ℝ) (hx : x ≠ 0) : (2 : ℝ) ^ Int.log 2 |x| ≤ |x| := by
  have := Int.zpow_log_le_self (b := 2) (by norm_num) (abs_pos.mpr hx)
  exact_mod_cast this

theorem lt_zpow_log (x : ℝ) : |x| < (2 : ℝ) ^ (Int.log 2 |x| + 1) := by
  have := Int.lt_zpow_succ_log_self (b := 2) (by norm_num) |x|
  exact_mod_cast this

theorem zpow_exp_le {x : ℝ} (hx : x ≠ 0) : (2 : ℝ) ^ binary64Exp x ≤ 2 ^ (-52 : ℤ) * |x| + 2 ^ (-1074 : ℤ) := by
  unfold binary64Exp
  rcases max_choice (Int.log 2 |x| - 52) (-1074) with h | h
  · rw [h]
    rw [sub_eq_add_neg, zpow_add₀ (by norm_num), mul_comm]
    have h1 := mul_le_mul_of_nonneg_left (zpow_log_le x hx) (zpow_pos' (-52)).le
    exact h1.trans (le_add_of_nonneg_right (zpow_pos' (-1074)).le)
  · rw [h]
    have : 0 ≤ (2 : ℝ) ^ (-52 : ℤ) * |x| := mul_nonneg (zpow_pos' _).le (abs_nonneg _)
    linarith

theorem binary64_zero : binary64 0 = 0 := by
  unfold binary64; simp

/-- Relative error, and underflow. -/
theorem binary64_near (x : ℝ) : |binary64 x - x| ≤ 2 ^ (-53 : ℤ) * |x| + 2 ^ (-1075 : ℤ) := by
  by_cases hx : x = 0
  · subst hx
    rw [binary64_zero, sub_zero, abs_zero, mul_zero, zero_add]
    exact (zpow_pos' _).le
  refine (binary64_half x).trans ?_
  have h := zpow_exp_le hx
  have e1 : (2 : ℝ) ^ (-52 : ℤ) = 2 * 2 ^ (-53 : ℤ) := by rw [← zpow_one_add₀ (by norm_num)]; norm_num
  have e2 : (2 : ℝ) ^ (-1074 : ℤ) = 2 * 2 ^ (-1075 : ℤ) := by rw [← zpow_one_add₀ (by norm_num)]; norm_num
  rw [e1, e2] at h
  generalize (2 : ℝ) ^ (-53 : ℤ) = a at h ⊢
  generalize (2 : ℝ) ^ (-1075 : ℤ) = b at h ⊢
  linarith

theorem binary64_one : binary64 1 = 1 := by
  have he : binary64Exp 1 = -52 := by
    unfold binary64Exp
    rw [abs_one, Int.log_one_right]; norm_num
  unfold binary64
  rw [he]
  have : (1 : ℝ) / 2 ^ (-52 : ℤ) = ((2 ^ 52 : ℤ) : ℝ) := by
    rw [zpow_neg, one_div, inv_inv]; norm_cast
  simp only [this, Int.fract_intCast, Int.floor_intCast]
  rw [if_pos (.inl (by norm_num)), ← this, one_div, inv_mul_cancel₀ (zpow_pos' _).ne']

/-- The result is a number of double precision. -/
theorem binary64_isDouble (x : ℝ) : IsDouble (binary64 x) := by
  have hle : |binary64Int x| ≤ 2 ^ 53 := by
    have h1 := binary64Int_near x
    have h2 : |x / 2 ^ binary64Exp x| < 2 ^ 53 := by
      rw [abs_div, abs_of_pos (zpow_pos' _), div_lt_iff₀ (zpow_pos' _)]
      refine (lt_zpow_log x).trans_le ?_
      rw [← zpow_natCast, ← zpow_add₀ (by norm_num)]
      refine zpow_le_zpow_right₀ (by norm_num) ?_
      have : Int.log 2 |x| - 52 ≤ binary64Exp x := le_max_left _ _
      push_cast; linarith
    have h3 : |(binary64Int x : ℝ)| < 2 ^ 53 + 1 := by
      calc |(binary64Int x : ℝ)| = |x / 2 ^ binary64Exp x + ((binary64Int x : ℝ) - x / 2 ^ binary64Exp x)| := by congr 1; ring
        _ ≤ _ := abs_add_le _ _
        _ < _ := by linarith
    have h4 : |binary64Int x| < 2 ^ 53 + 1 := by exact_mod_cast h3
    omega
  have he : -1074 ≤ binary64Exp x := le_max_right _ _
  rcases hle.lt_or_eq with h | h
  · exact ⟨_, _, h, he, binary64_eq x⟩
  · rcases abs_eq (by norm_num) |>.mp h with h | h
    · refine ⟨2 ^ 52, binary64Exp x + 1, by norm_num, by omega, ?_⟩
      rw [binary64_eq, h, zpow_add_one₀ (by norm_num)]; push_cast; ring
    · refine ⟨-2 ^ 52, binary64Exp x + 1, by norm_num, by omega, ?_⟩
      rw [binary64_eq, h, zpow_add_one₀ (by norm_num)]; push_cast; ring

/-- No number of double precision is closer. -/
theorem binary64_nearest {x y : ℝ} (hy : IsDouble y) : |binary64 x - x| ≤ |y - x| := by
  by_cases hx : x = 0
  · subst hx
    rw [binary64_zero, sub_zero, abs_zero]
    exact abs_nonneg _
  have key : ∀ m : ℤ, |binary64 x - x| ≤ |(m : ℝ) * 2 ^ binary64Exp x - x| := by
    intro m
    rw [binary64_eq, binary64_sub, binary64_sub]
    exact mul_le_mul_of_nonneg_right (binary64Int_nearest x m) (zpow_pos' _).le
  obtain ⟨n, e, hn, he, rfl⟩ := hy
  rcases le_or_gt (binary64Exp x) e with h | h
  · obtain ⟨k, hk⟩ := Int.le.dest h
    have := key (n * 2 ^ k)
    rw [← hk, zpow_add₀ (by norm_num)]
    push_cast at this
    rw [zpow_natCast]
    convert this using 3
    ring
  · -- numbers with smaller digits are below the magnitude of `x`
    have hE : binary64Exp x = Int.log 2 |x| - 52 := by
      unfold binary64Exp at h ⊢
      rcases max_choice (Int.log 2 |x| - 52) (-1074) with h' | h'
      · exact h'
      · rw [h'] at h; omega
    set E := binary64Exp x
    have hlow : (2 : ℝ) ^ (52 : ℕ) * 2 ^ E ≤ |x| := by
      refine le_trans (le_of_eq ?_) (zpow_log_le x hx)
      rw [← zpow_natCast, ← zpow_add₀ (by norm_num)]
      congr 1; push_cast; omega
    have hyl : |(n : ℝ) * 2 ^ e| ≤ 2 ^ (52 : ℕ) * 2 ^ E := by
      rw [abs_mul, abs_of_pos (zpow_pos' e)]
      have h1 : |(n : ℝ)| ≤ 2 ^ 53 := by exact_mod_cast hn.le
      have h2 : (2 : ℝ) ^ e ≤ 2 ^ (E - 1) := zpow_le_zpow_right₀ (by norm_num) (by omega)
      refine (mul_le_mul h1 h2 (zpow_pos' e).le (by norm_num)).trans (le_of_eq ?_)
      rw [zpow_sub_one₀ (by norm_num)]; ring
    rcases lt_or_gt_of_ne hx with hneg | hpos
    · have := key (-2 ^ 52)
      push_cast at this
      refine this.trans ?_
      rw [abs_of_neg hneg] at hlow
      have h3 := (abs_le.mp hyl).1
      rw [abs_of_nonneg (by linarith), abs_of_nonneg (by linarith)]
      linarith
    · have := key (2 ^ 52)
      push_cast at this
      refine this.trans ?_
      rw [abs_of_pos hpos] at hlow
      have h3 := (abs_le.mp hyl).2
      rw [abs_of_nonpos (by linarith), abs_of_nonpos (by linarith)]
      linarith

/-! ## Double precision is an accurate machine -/

theorem binary64_error {x b : ℝ} (hb : 2 ^ (-1000 : ℤ) ≤ b) (hx : |x| ≤ b) : |binary64 x - x| ≤ 1.001 * 2 ^ (-53 : ℤ) * b := by
  refine (binary64_near x).trans ?_
  have h1 : (2 : ℝ) ^ (-1075 : ℤ) ≤ 2 ^ (-63 : ℤ) * b := by
    refine le_trans ?_ (mul_le_mul_of_nonneg_left hb (zpow_pos' _).le)
    rw [← zpow_add₀ (by norm_num)]
    exact zpow_le_zpow_right₀ (by norm_num) (by norm_num)
  have h2 := mul_le_mul_of_nonneg_left hx (zpow_pos' (-53)).le
  have h3 : (2 : ℝ) ^ (-63 : ℤ) * b ≤ 0.001 * 2 ^ (-53 : ℤ) * b := by
    refine mul_le_mul_of_nonneg_right ?_ ((zpow_pos' _).le.trans hb)
    norm_num
  generalize (2 : ℝ) ^ (-53 : ℤ) = a at *
  generalize (2 : ℝ) ^ (-1075 : ℤ) = c at *
  generalize (2 : ℝ) ^ (-63 : ℤ) = e at *
  linarith

theorem double_parts {z : ℂ} {b : ℝ} (hb : 2 ^ (-1000 : ℤ) ≤ b) (hz : ‖z‖ ≤ b) :
    ‖(⟨binary64 z.re, binary64 z.im⟩ : ℂ) - z‖ ≤ 2 ^ (-52 : ℤ) * b := by
  have hb0 : 0 ≤ b := (norm_nonneg _).trans hz
  refine (norm_le_of_parts (e := 1.001 * 2 ^ (-53 : ℤ) * b) ?_ ?_).trans ?_
  · exact binary64_error hb ((Complex.abs_re_le_norm z).trans hz)
  · exact binary64_error hb ((Complex.abs_im_le_norm z).trans hz)
  · rw [← mul_assoc]
    refine mul_le_mul_of_nonneg_right ?_ hb0
    norm_num

open Matrix
open scoped Matrix.Norms.L2Operator

theorem le_norm_det {d : ℕ} (hd : d ≤ 1024) {a : Arr} (ha : a.rows = d)
    (hV : ∃ V ∈ unitaryGroup (Fin d) ℂ, ‖a.toMatrix d - V‖ ≤ 1 / 100) : 2 ^ (-1000 : ℤ) ≤ ‖a.det‖ := by
  have h1 : (2 : ℝ) ^ (-1000 : ℤ) ≤ (1 - 1.011 * (1 / 100)) ^ d := by
    calc (2 : ℝ) ^ (-1000 : ℤ) ≤ 2 ^ (-512 : ℤ) := zpow_le_zpow_right₀ (by norm_num) (by norm_num)
      _ = (1 / 2) ^ 512 := by rw [one_div, inv_pow, _root_.zpow_neg]; norm_cast
      _ ≤ ((1 - 1.011 * (1 / 100)) ^ 2) ^ 512 := pow_le_pow_left₀ (by norm_num) (by norm_num) _
      _ = (1 - 1.011 * (1 / 100)) ^ 1024 := by rw [← pow_mul]
      _ ≤ _ := pow_le_pow_of_le_one (by norm_num) (by norm_num) hd
  have hdet : a.det = (a.toMatrix d).det := by unfold Arr.det; rw [ha]
  rw [hdet]
  rcases Nat.eq_zero_or_pos d with rfl | hd0
  · rw [det_isEmpty, norm_one]
    rw [pow_zero] at h1; exact h1
  · obtain ⟨V, hV, h⟩ := hV
    have := (det_perturb hd0 (X := V) hV (ε := 0) (by simp) (Unitary.norm_det_of_unitary hV) h le_rfl (by norm_num) (by norm_num)).1
    rw [add_sub_cancel] at this
    exact h1.trans this

theorem norm_root_le {d : ℕ} {z : ℂ} (hz : (1 / 2) ^ d ≤ ‖z‖) : ‖(1 / z) ^ (1 / (d : ℂ))‖ ≤ 2 := by
  have hpos : 0 < ‖z‖ := lt_of_lt_of_le (by positivity) hz
  rcases Nat.eq_zero_or_pos d with rfl | hd
  · simp
  · refine le_of_pow_le_pow_left₀ hd.ne' (by norm_num) ?_
    rw [← norm_pow, one_div (d : ℂ), Complex.cpow_nat_inv_pow _ hd.ne', norm_div, norm_one, div_le_iff₀ hpos]
    calc (1 : ℝ) = 2 ^ d * (1 / 2) ^ d := by rw [← mul_pow]; norm_num
      _ ≤ _ := mul_le_mul_of_nonneg_left hz (by positivity)

/-- Rounding is symmetric. -/
theorem binary64_neg (x : ℝ) : binary64 (-x) = -binary64 x := by
  have he : binary64Exp (-x) = binary64Exp x := by unfold binary64Exp; rw [abs_neg]
  rw [binary64_eq, binary64_eq, he, ← neg_mul]
  congr 1
  unfold binary64Int
  rw [he, neg_div]
  set y := x / 2 ^ binary64Exp x
  have h0 := Int.fract_nonneg y
  by_cases hf : Int.fract y = 0
  · have h1 : Int.fract (-y) = 0 := by rw [Int.fract_neg_eq_zero]; exact hf
    have h2 : ⌊-y⌋ = -⌊y⌋ := by
      have e1 := Int.floor_add_fract y
      have e2 := Int.floor_add_fract (-y)
      have : ((⌊-y⌋ : ℤ) : ℝ) = ((-⌊y⌋ : ℤ) : ℝ) := by push_cast; linarith
      exact_mod_cast this
    simp only
    rw [hf, h1, if_pos (.inl (by norm_num)), if_pos (.inl (by norm_num)), h2]; push_cast; rfl
  · have h1 : Int.fract (-y) = 1 - Int.fract y := Int.fract_neg hf
    have h2 : ⌊-y⌋ = -⌊y⌋ - 1 := by
      have e1 := Int.floor_add_fract y
      have e2 := Int.floor_add_fract (-y)
      have : ((⌊-y⌋ : ℤ) : ℝ) = ((-⌊y⌋ - 1 : ℤ) : ℝ) := by push_cast; linarith
      exact_mod_cast this
    have h3 : Even (-⌊y⌋ - 1) ↔ ¬ Even ⌊y⌋ := by rw [Int.even_sub_one, even_neg]
    simp only
    rw [h1, h2]
    set A := 1 - Int.fract y < 1 / 2 ∨ 1 - Int.fract y = 1 / 2 ∧ Even (-⌊y⌋ - 1) with hA
    set B := Int.fract y < 1 / 2 ∨ Int.fract y = 1 / 2 ∧ Even ⌊y⌋ with hB
    have hAB : A ↔ ¬ B := by
      rw [hA, hB, h3]
      rcases lt_trichotomy (Int.fract y) (1 / 2) with h | h | h
      · have e1 : ¬ 1 - Int.fract y < 1 / 2 := by linarith
        have e2 : 1 - Int.fract y ≠ 1 / 2 := by intro e; linarith
        simp only [e1, e2, h, false_and, false_or, true_or, not_true]
      · have e1 : 1 - Int.fract y = 1 / 2 := by linarith
        rw [e1, h]; simp
      · have e1 : 1 - Int.fract y < 1 / 2 := by linarith
        have e2 : ¬ Int.fract y < 1 / 2 := by linarith
        simp only [e1, e2, h.ne', false_and, false_or, true_or, not_false_iff]
    by_cases hb : B
    · rw [if_pos hb, if_neg (fun ha => hAB.mp ha hb)]; push_cast; ring
    · rw [if_neg hb, if_pos (hAB.mpr hb)]; push_cast; ring

/-- Numbers of double precision are left alone. -/
theorem binary64_of_isDouble {x : ℝ} (hx : IsDouble x) : binary64 x = x := by
  have := binary64_nearest (x := x) hx
  rw [sub_self, abs_zero] at this
  exact sub_eq_zero.mp (abs_nonpos_iff.mp this)

theorem binary64_again (x : ℝ) : binary64 (binary64 x) = binary64 x := binary64_of_isDouble (binary64_isDouble x)

/-- Summation of real numbers from left to right. -/
noncomputable def leftSum (l : List ℝ) : ℝ := l.foldl (fun x y => binary64 (x + y)) 0

theorem roundedSum_parts (l : List ℂ) : (roundedSum binary64 l).re = leftSum (l.map Complex.re) ∧
    (roundedSum binary64 l).im = leftSum (l.map Complex.im) := by
  induction l using List.reverseRecOn with
  | nil => simp [roundedSum, leftSum]
  | append_singleton l x ih =>
    unfold roundedSum leftSum at *
    simp only [List.map_append, List.foldl_append, List.map_cons, List.map_nil, List.foldl_cons, List.foldl_nil]
    exact ⟨by rw [ih.1], by rw [ih.2]⟩

/-- It adds blocks of `s` terms that were added before. -/
theorem leftSum_adds {M : Machine} (h : M.round = binary64) {g f : ℕ → ℝ} {s : ℕ}
    (h0 : M.Adds g (Finset.range s) (binary64 (f 0)))
    (hf : ∀ k, 0 < k → M.Adds g (Finset.Ico (s * k) (s * (k + 1))) (f k)) (n : ℕ) :
    M.Adds g (Finset.range (s * (n + 1))) (leftSum ((List.range (n + 1)).map f)) := by
  induction n with
  | zero => simpa [leftSum] using h0
  | succ n ih =>
    have e : Finset.range (s * (n + 1 + 1)) = Finset.range (s * (n + 1)) ∪ Finset.Ico (s * (n + 1)) (s * (n + 1 + 1)) := by
      rw [Finset.range_eq_Ico, Finset.range_eq_Ico,
        Finset.Ico_union_Ico_eq_Ico (Nat.zero_le _) (Nat.mul_le_mul_left _ (by omega))]
    have hd : Disjoint (Finset.range (s * (n + 1))) (Finset.Ico (s * (n + 1)) (s * (n + 1 + 1))) := by
      rw [Finset.disjoint_left]
      intro k hk hk'
      rw [Finset.mem_range] at hk
      rw [Finset.mem_Ico] at hk'
      omega
    have := ih.add (hf (n + 1) (by omega)) hd
    rw [← e, h] at this
    rw [List.range_succ, List.map_append]
    unfold leftSum at *
    rw [List.foldl_append]
    exact this

theorem roundedMul_adds {M : Machine} (h : M.round = binary64) (x y : ℕ → ℂ) (k : ℕ) :
    M.Adds (Machine.reTerms x y) (Finset.Ico (2 * k) (2 * (k + 1))) (roundedMul binary64 (x k) (y k)).re ∧
    M.Adds (Machine.imTerms x y) (Finset.Ico (2 * k) (2 * (k + 1))) (roundedMul binary64 (x k) (y k)).im := by
  have e : Finset.Ico (2 * k) (2 * (k + 1)) = {2 * k} ∪ {2 * k + 1} := by
    ext m; simp only [Finset.mem_Ico, Finset.mem_union, Finset.mem_singleton]; omega
  have hd : Disjoint ({2 * k} : Finset ℕ) {2 * k + 1} := by simp
  rw [e]
  constructor
  · have := (Machine.Adds.rounded (M := M) (g := Machine.reTerms x y) (2 * k)).add (.rounded (2 * k + 1)) hd
    rw [Machine.reTerms_even, Machine.reTerms_odd, h, binary64_neg, ← sub_eq_add_neg] at this
    exact this
  · have := (Machine.Adds.rounded (M := M) (g := Machine.imTerms x y) (2 * k)).add (.rounded (2 * k + 1)) hd
    rw [Machine.imTerms_even, Machine.imTerms_odd, h] at this
    exact this

/-- Products of numbers, computed one after the other. -/
theorem roundedMul_dot {M : Machine} (h : M.round = binary64) (x y : ℂ) :
    M.Dot 1 (fun _ => x) (fun _ => y) (roundedMul binary64 x y) := by
  have := roundedMul_adds h (fun _ => x) (fun _ => y) 0
  rw [mul_zero, ← Finset.range_eq_Ico] at this
  exact ⟨by rw [Machine.Sums, if_neg (by norm_num)]; exact this.1, by rw [Machine.Sums, if_neg (by norm_num)]; exact this.2⟩

/-- Sums of products, computed one after the other. -/
theorem roundedSum_dot {M : Machine} (h : M.round = binary64) (x y : ℕ → ℂ) (n : ℕ) :
    M.Dot n x y (roundedSum binary64 ((List.range n).map fun k => roundedMul binary64 (x k) (y k))) := by
  obtain ⟨hre, him⟩ := roundedSum_parts ((List.range n).map fun k => roundedMul binary64 (x k) (y k))
  cases n with
  | zero => exact ⟨by simp [Machine.Sums, roundedSum], by simp [Machine.Sums, roundedSum]⟩
  | succ n =>
    have h0 := roundedMul_adds h x y 0
    rw [mul_zero, ← Finset.range_eq_Ico] at h0
    unfold Machine.Dot Machine.Sums
    rw [if_neg (by omega), if_neg (by omega), hre, him, List.map_map, List.map_map]
    refine ⟨leftSum_adds h (s := 2) ?_ (fun k _ => (roundedMul_adds h x y k).1) n,
      leftSum_adds h (s := 2) ?_ (fun k _ => (roundedMul_adds h x y k).2) n⟩
    · rw [show binary64 (roundedMul binary64 (x 0) (y 0)).re = _ from binary64_again _]; exact h0.1
    · rw [show binary64 (roundedMul binary64 (x 0) (y 0)).im = _ from binary64_again _]; exact h0.2

/-- Sums of numbers, computed one after the other. -/
theorem leftSum_sums {M : Machine} (h : M.round = binary64) (g : ℕ → ℝ) (n : ℕ) :
    M.Sums n g (leftSum ((List.range n).map g)) := by
  cases n with
  | zero => simp [Machine.Sums, leftSum]
  | succ n =>
    unfold Machine.Sums
    rw [if_neg (by omega)]
    have := leftSum_adds h (s := 1) (g := g) (f := g) ?_ (fun k _ => ?_) n
    · rwa [one_mul] at this
    · rw [← h]; exact .rounded 0
    · rw [one_mul, one_mul, Nat.Ico_succ_singleton]; exact .exact k

/-- Double precision meets the requirements on a machine. -/
theorem Machine.double_ok {D : ℕ} (hD : 1 ≤ D) (hD2 : D ≤ 1024) : Machine.double.Ok D (2 ^ (-51 : ℤ)) := by
  have hD' : (1 : ℝ) ≤ D := by exact_mod_cast hD
  have small : (2 : ℝ) ^ (-1000 : ℤ) ≤ 1 := zpow_le_one_of_nonpos₀ (by norm_num) (by norm_num)
  have hstep : (2 : ℝ) ^ (-52 : ℤ) * 2 ≤ D * 2 ^ (-51 : ℤ) := by
    have : (2 : ℝ) ^ (-52 : ℤ) * 2 = 1 * 2 ^ (-51 : ℤ) := by norm_num
    rw [this]
    exact mul_le_mul_of_nonneg_right hD' (zpow_pos' _).le
  have hstep' : (2 : ℝ) ^ (-52 : ℤ) ≤ D * 2 ^ (-51 : ℤ) := by
    refine le_trans ?_ hstep
    exact le_mul_of_one_le_right (zpow_pos' _).le (by norm_num)
  refine ⟨?_, binary64_zero, binary64_one, roundedMul_dot rfl, fun a b i j => roundedSum_dot rfl _ _ _, fun a => ?_,
    ?_, ?_, ?_, ?_, ?_, ?_⟩
  · intro x _
    refine (binary64_error (b := max 1 |x|) (small.trans (le_max_left _ _)) (le_max_right _ _)).trans ?_
    refine mul_le_mul_of_nonneg_right ?_ (zero_le_one.trans (le_max_left _ _))
    norm_num
  · obtain ⟨hre, him⟩ := roundedSum_parts ((List.range a.rows).map fun k => a.val k k)
    unfold Machine.double
    simp only [hre, him, List.map_map]
    exact ⟨leftSum_sums rfl _ _, leftSum_sums rfl _ _⟩
  · intro d hd a ha hV
    refine (double_parts (le_norm_det (hd.trans hD2) ha.rows hV) le_rfl).trans ?_
    exact mul_le_mul_of_nonneg_right hstep' (norm_nonneg _)
  · intro d _
    have : (Arr.identity d).det = 1 := by
      unfold Arr.det; rw [Arr.toMatrix_identity]; exact det_one
    change (⟨binary64 (Arr.identity d).det.re, binary64 (Arr.identity d).det.im⟩ : ℂ) = 1
    rw [this, Complex.one_re, Complex.one_im, binary64_zero, binary64_one]; rfl
  · intro d _ z h1 _
    refine (double_parts (b := 2) (small.trans (by norm_num)) (norm_root_le h1)).trans hstep
  · intro d _
    change (⟨binary64 ((1 / 1 : ℂ) ^ (1 / (d : ℂ))).re, binary64 ((1 / 1 : ℂ) ^ (1 / (d : ℂ))).im⟩ : ℂ) = 1
    rw [div_one, Complex.one_cpow, Complex.one_re, Complex.one_im, binary64_zero, binary64_one]; rfl
  · intro d _ name args a _ ha i hi j hj
    refine (double_parts (b := 2) (small.trans (by norm_num)) ((ha.entry hi hj).trans (by norm_num))).trans hstep
  · intro d _ h a x _ ha i hi j hj
    refine (double_parts (b := 2) (small.trans (by norm_num)) ((ha.entry hi hj).trans (by norm_num))).trans hstep

end Stoq
