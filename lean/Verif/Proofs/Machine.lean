import Verif.Spec.Machine
import Verif.Proofs.Drift
import Mathlib.Analysis.SpecialFunctions.Complex.LogBounds

/-! # The error of rounded matrix operations -/

namespace Stoq

open Matrix
open scoped Matrix.Norms.L2Operator

theorem norm_le_of_parts {z : ℂ} {e : ℝ} (h1 : |z.re| ≤ e) (h2 : |z.im| ≤ e) : ‖z‖ ≤ 1.42 * e := by
  have he : 0 ≤ e := (abs_nonneg _).trans h1
  refine (Complex.norm_le_sqrt_two_mul_max z).trans ?_
  refine mul_le_mul ?_ (max_le h1 h2) (le_max_of_le_left (abs_nonneg _)) (by norm_num)
  rw [Real.sqrt_le_left (by norm_num)]; norm_num

namespace Machine

variable {M : Machine} {D d : ℕ} {u : ℝ}

theorem Ok.u_nonneg (h : M.Ok D u) : 0 ≤ u := by
  have := (abs_nonneg _).trans (h.round 0 (by simp))
  simpa using this

/-- The error of one operation. -/
theorem Ok.near (h : M.Ok D u) {x b : ℝ} (hb : 1 ≤ b) (hbD : b ≤ 4 * D) (hx : |x| ≤ b) : |M.round x - x| ≤ u * b :=
  (h.round x (hx.trans hbD)).trans (mul_le_mul_of_nonneg_left (max_le hb hx) h.u_nonneg)

/-- Summation, when no sum of some of the terms is above `b`. -/
theorem Ok.adds_near (h : M.Ok D u) {g : ℕ → ℝ} {b : ℝ} (hb : 1 ≤ b) (hbD : 2 * b ≤ 4 * D) {N : ℕ}
    (hs : ∀ T ⊆ Finset.range N, |∑ k ∈ T, g k| ≤ b) (hN : 2 * N * (u * (2 * b)) ≤ b) {S : Finset ℕ} {x : ℝ}
    (hx : M.Adds g S x) (hS : S ⊆ Finset.range N) :
    |x - ∑ k ∈ S, g k| ≤ (2 * S.card - 1) * (u * (2 * b)) := by
  have hu0 := h.u_nonneg
  set r := u * (2 * b) with hr
  have hr0 : 0 ≤ r := by positivity
  induction hx with
  | exact k => simp; linarith
  | rounded k =>
    have := hs _ hS
    rw [Finset.sum_singleton] at this ⊢
    refine (h.near (b := 2 * b) (by linarith) hbD (by linarith)).trans ?_
    simp; linarith
  | @add S T x y h1 h2 hd ih1 ih2 =>
    have ih1 := ih1 (Finset.union_subset_left hS)
    have ih2 := ih2 (Finset.union_subset_right hS)
    have h3 := hs _ hS
    rw [Finset.sum_union hd] at h3 ⊢
    have hcard : (((S ∪ T).card : ℕ) : ℝ) = S.card + T.card := by rw [Finset.card_union_of_disjoint hd]; push_cast; rfl
    have hle : (((S ∪ T).card : ℕ) : ℝ) ≤ N := by
      have := Finset.card_le_card hS
      rw [Finset.card_range] at this
      exact_mod_cast this
    rw [hcard] at hle ⊢
    set p := ∑ k ∈ S, g k
    set q := ∑ k ∈ T, g k
    have h4 : |(x + y) - (p + q)| ≤ (2 * (S.card + T.card) - 2) * r := by
      calc |(x + y) - (p + q)| = |(x - p) + (y - q)| := by congr 1; ring
        _ ≤ _ := (abs_add_le _ _).trans (add_le_add ih1 ih2)
        _ = _ := by ring
    have h5 : (2 * ((S.card : ℝ) + T.card) - 2) * r ≤ b := by
      refine le_trans (mul_le_mul_of_nonneg_right ?_ hr0) hN
      linarith
    have h6 : |x + y| ≤ 2 * b := by
      calc |x + y| = |(p + q) + ((x + y) - (p + q))| := by congr 1; ring
        _ ≤ _ := (abs_add_le _ _).trans (by linarith)
    have h7 := h.near (by linarith) hbD h6
    calc |M.round (x + y) - (p + q)| = |(M.round (x + y) - (x + y)) + ((x + y) - (p + q))| := by congr 1; ring
      _ ≤ r + (2 * (S.card + T.card) - 2) * r := (abs_add_le _ _).trans (add_le_add h7 h4)
      _ = _ := by ring

theorem Ok.sums_near (h : M.Ok D u) {g : ℕ → ℝ} {b : ℝ} (hb : 1 ≤ b) (hbD : 2 * b ≤ 4 * D) {N : ℕ}
    (hs : ∀ T ⊆ Finset.range N, |∑ k ∈ T, g k| ≤ b) (hN : 2 * N * (u * (2 * b)) ≤ b) {x : ℝ} (hx : M.Sums N g x) :
    |x - ∑ k ∈ Finset.range N, g k| ≤ (2 * N - 1 : ℕ) * (u * (2 * b)) := by
  unfold Sums at hx
  rcases Nat.eq_zero_or_pos N with rfl | h0
  · rw [if_pos rfl] at hx
    simp [hx]
  · rw [if_neg h0.ne'] at hx
    refine (h.adds_near hb hbD hs hN hx le_rfl).trans (le_of_eq ?_)
    rw [Finset.card_range, Nat.cast_sub (by omega)]
    push_cast; ring

theorem sum_two_mul (f : ℕ → ℝ) (n : ℕ) : ∑ k ∈ Finset.range (2 * n), f k = ∑ k ∈ Finset.range n, (f (2 * k) + f (2 * k + 1)) := by
  induction n with
  | zero => simp
  | succ n ih => rw [Finset.sum_range_succ, ← ih, show 2 * (n + 1) = 2 * n + 1 + 1 by ring, Finset.sum_range_succ, Finset.sum_range_succ]; ring

theorem reTerms_even (x y : ℕ → ℂ) (k : ℕ) : reTerms x y (2 * k) = (x k).re * (y k).re := by
  unfold reTerms; rw [if_pos (by omega), show 2 * k / 2 = k by omega]

theorem reTerms_odd (x y : ℕ → ℂ) (k : ℕ) : reTerms x y (2 * k + 1) = -((x k).im * (y k).im) := by
  unfold reTerms; rw [if_neg (by omega), show (2 * k + 1) / 2 = k by omega]

theorem imTerms_even (x y : ℕ → ℂ) (k : ℕ) : imTerms x y (2 * k) = (x k).re * (y k).im := by
  unfold imTerms; rw [if_pos (by omega), show 2 * k / 2 = k by omega]

theorem imTerms_odd (x y : ℕ → ℂ) (k : ℕ) : imTerms x y (2 * k + 1) = (x k).im * (y k).re := by
  unfold imTerms; rw [if_neg (by omega), show (2 * k + 1) / 2 = k by omega]

theorem sum_reTerms (x y : ℕ → ℂ) (n : ℕ) :
    ∑ k ∈ Finset.range (2 * n), reTerms x y k = (∑ k ∈ Finset.range n, x k * y k).re := by
  rw [sum_two_mul, Complex.re_sum]
  refine Finset.sum_congr rfl fun k _ => ?_
  rw [reTerms_even, reTerms_odd, Complex.mul_re]; ring

theorem sum_imTerms (x y : ℕ → ℂ) (n : ℕ) :
    ∑ k ∈ Finset.range (2 * n), imTerms x y k = (∑ k ∈ Finset.range n, x k * y k).im := by
  rw [sum_two_mul, Complex.im_sum]
  refine Finset.sum_congr rfl fun k _ => ?_
  rw [imTerms_even, imTerms_odd, Complex.mul_im]

/-- Two products of parts of `x` and `y` are at most `‖x‖ * ‖y‖` together. -/
theorem parts_le (x y : ℂ) : |x.re * y.re| + |x.im * y.im| ≤ ‖x‖ * ‖y‖ ∧ |x.re * y.im| + |x.im * y.re| ≤ ‖x‖ * ‖y‖ := by
  have key : ∀ a b c d : ℝ, |a * c| + |b * d| ≤ √(a ^ 2 + b ^ 2) * √(c ^ 2 + d ^ 2) := by
    intro a b c d
    rw [← Real.sqrt_mul (by positivity)]
    refine Real.le_sqrt_of_sq_le ?_
    rw [abs_mul, abs_mul]
    nlinarith [sq_nonneg (|a| * |d| - |b| * |c|), sq_abs a, sq_abs b, sq_abs c, sq_abs d]
  have hn : ∀ z : ℂ, ‖z‖ = √(z.re ^ 2 + z.im ^ 2) := Complex.norm_eq_sqrt_sq_add_sq
  constructor
  · rw [hn x, hn y]; exact key _ _ _ _
  · rw [hn x, hn y, add_comm (y.re ^ 2)]; exact key _ _ _ _

theorem abs_sum_terms_le {g : ℕ → ℝ} {x y : ℕ → ℂ} {n : ℕ} {b : ℝ}
    (hg : ∀ k, |g (2 * k)| + |g (2 * k + 1)| ≤ ‖x k‖ * ‖y k‖) (hb : ∑ k ∈ Finset.range n, ‖x k‖ * ‖y k‖ ≤ b)
    (T : Finset ℕ) (hT : T ⊆ Finset.range (2 * n)) : |∑ k ∈ T, g k| ≤ b := by
  refine (Finset.abs_sum_le_sum_abs _ _).trans ?_
  refine (Finset.sum_le_sum_of_subset_of_nonneg hT fun _ _ _ => abs_nonneg _).trans ?_
  rw [sum_two_mul (fun k => |g k|)]
  exact (Finset.sum_le_sum fun k _ => hg k).trans hb

/-- A computed sum of products. -/
theorem Ok.dot_near (h : M.Ok D u) {x y : ℕ → ℂ} {n : ℕ} {z : ℂ} (hz : M.Dot n x y z) {b : ℝ} (hb : 1 ≤ b)
    (hbD : 2 * b ≤ 4 * D) (hxy : ∑ k ∈ Finset.range n, ‖x k‖ * ‖y k‖ ≤ b) (hn : 4 * n * (u * (2 * b)) ≤ b) :
    ‖z - ∑ k ∈ Finset.range n, x k * y k‖ ≤ 1.42 * ((4 * n - 1 : ℕ) * (u * (2 * b))) := by
  have hN : 2 * ((2 * n : ℕ) : ℝ) * (u * (2 * b)) ≤ b := by push_cast; linarith
  refine norm_le_of_parts ?_ ?_
  · rw [Complex.sub_re, ← sum_reTerms]
    refine (h.sums_near hb hbD (abs_sum_terms_le (x := x) (y := y) (fun k => ?_) hxy) hN hz.1).trans (le_of_eq ?_)
    · rw [reTerms_even, reTerms_odd, abs_neg]; exact (parts_le _ _).1
    · rw [show 2 * (2 * n) - 1 = 4 * n - 1 by omega]
  · rw [Complex.sub_im, ← sum_imTerms]
    refine (h.sums_near hb hbD (abs_sum_terms_le (x := x) (y := y) (fun k => ?_) hxy) hN hz.2).trans (le_of_eq ?_)
    · rw [imTerms_even, imTerms_odd]; exact (parts_le _ _).2
    · rw [show 2 * (2 * n) - 1 = 4 * n - 1 by omega]

theorem Ok.mul_near (h : M.Ok D u) (hD : 1 ≤ D) (hu : u ≤ 1 / 100) {x y : ℂ} (hx : ‖x‖ ≤ 1.12) (hy : ‖y‖ ≤ 1.12) :
    ‖M.mul x y - x * y‖ ≤ 11 * u := by
  have hD' : (1 : ℝ) ≤ D := by exact_mod_cast hD
  have hu0 := h.u_nonneg
  have hxy : ‖x‖ * ‖y‖ ≤ 1.26 := (mul_le_mul hx hy (norm_nonneg _) (by norm_num)).trans (by norm_num)
  have := h.dot_near (h.mul x y) (b := 1.26) (by norm_num) (by norm_num; linarith) (by simpa using hxy)
    (by norm_num at *; linarith)
  rw [Finset.sum_range_one] at this
  refine this.trans ?_
  norm_num; linarith

theorem _root_.Stoq.Arr.Small.entry {a : Arr} (h : a.Small d) {i j : ℕ} (hi : i < d) (hj : j < d) : ‖a.val i j‖ ≤ 1.1 :=
  (entry_le_norm (a.toMatrix d) ⟨i, hi⟩ ⟨j, hj⟩).trans h.norm



theorem col_sq_le (A : Matrix (Fin d) (Fin d) ℂ) (j : Fin d) : ∑ i, ‖A i j‖ ^ 2 ≤ ‖A‖ ^ 2 := by
  have h := Matrix.l2_opNorm_mulVec A (EuclideanSpace.single j (1 : ℂ))
  have h0 : ‖EuclideanSpace.single j (1 : ℂ)‖ = 1 := by simp
  rw [h0, mul_one] at h
  have h1 := pow_le_pow_left₀ (norm_nonneg _) h 2
  rw [EuclideanSpace.norm_sq_eq] at h1
  refine le_trans (le_of_eq ?_) h1
  simp

theorem row_sq_le (A : Matrix (Fin d) (Fin d) ℂ) (i : Fin d) : ∑ j, ‖A i j‖ ^ 2 ≤ ‖A‖ ^ 2 := by
  have := col_sq_le Aᴴ i
  rw [Matrix.l2_opNorm_conjTranspose] at this
  simpa using this

theorem sum_norm_le {a b : Arr} (ha : a.Small d) (hb : b.Small d) {i j : ℕ} (hi : i < d) (hj : j < d) :
    ∑ k ∈ Finset.range d, ‖a.val i k‖ * ‖b.val k j‖ ≤ 1.21 := by
  have h1 : ∑ k ∈ Finset.range d, ‖a.val i k‖ ^ 2 ≤ 1.1 ^ 2 := by
    have := row_sq_le (a.toMatrix d) ⟨i, hi⟩
    refine le_trans (le_of_eq ?_) (this.trans (pow_le_pow_left₀ (norm_nonneg _) ha.norm 2))
    exact (Fin.sum_univ_eq_sum_range (fun k => ‖a.val i k‖ ^ 2) d).symm
  have h2 : ∑ k ∈ Finset.range d, ‖b.val k j‖ ^ 2 ≤ 1.1 ^ 2 := by
    have := col_sq_le (b.toMatrix d) ⟨j, hj⟩
    refine le_trans (le_of_eq ?_) (this.trans (pow_le_pow_left₀ (norm_nonneg _) hb.norm 2))
    exact (Fin.sum_univ_eq_sum_range (fun k => ‖b.val k j‖ ^ 2) d).symm
  have h3 := Finset.sum_mul_sq_le_sq_mul_sq (Finset.range d) (fun k => ‖a.val i k‖) (fun k => ‖b.val k j‖)
  refine le_of_sq_le_sq ?_ (by norm_num)
  refine h3.trans ((mul_le_mul h1 h2 (by positivity) (by norm_num)).trans (by norm_num))

theorem Ok.matmul_near (h : M.Ok D u) (hD : 1 ≤ D) (hu : D * u ≤ 1 / 100) (hd : d ≤ D) {a b : Arr} (ha : a.Small d)
    (hb : b.Small d) {i j : ℕ} (hi : i < d) (hj : j < d) (t : ℝ) :
    ‖(M.arith t).mul a b i j - (a.matmul b).val i j‖ ≤ 16 * D * u := by
  have hD' : (1 : ℝ) ≤ D := by exact_mod_cast hD
  have hd' : (d : ℝ) ≤ D := by exact_mod_cast hd
  have hu0 := h.u_nonneg
  have hdu : d * u ≤ D * u := mul_le_mul_of_nonneg_right hd' hu0
  have h1 := h.dot a b i j
  rw [ha.cols] at h1
  have := h.dot_near h1 (b := 1.25) (by norm_num) (by norm_num; linarith)
    ((sum_norm_le ha hb hi hj).trans (by norm_num)) (by norm_num at *; linarith)
  simp only [arith, Arr.matmul, ha.cols]
  refine this.trans ?_
  have hc : ((4 * d - 1 : ℕ) : ℝ) ≤ 4 * d := by exact_mod_cast Nat.sub_le _ _
  have := mul_le_mul_of_nonneg_right hc (by positivity : 0 ≤ u * (2 * 1.25))
  norm_num at *; nlinarith

theorem Ok.distance_near (h : M.Ok D u) (hD : 1 ≤ D) (hu : D * u ≤ 1 / 100) (hd : d ≤ D) {a : Arr} (ha : a.Small d) (t : ℝ) :
    |(M.arith t).distance d a - (1 - ‖a.trace‖ / d)| ≤ 16 * D * u := by
  have hD' : (1 : ℝ) ≤ D := by exact_mod_cast hD
  have hd' : (d : ℝ) ≤ D := by exact_mod_cast hd
  have hu0 := h.u_nonneg
  have hu1 : u ≤ 1 / 100 := by nlinarith
  have huD : u ≤ D * u := le_mul_of_one_le_left hu0 hD'
  rcases Nat.eq_zero_or_pos d with rfl | hd0
  · simp [arith, h.zero, h.one]; positivity
  have hd1 : (1 : ℝ) ≤ d := by exact_mod_cast hd0
  have hdu : d * u ≤ D * u := mul_le_mul_of_nonneg_right hd' hu0
  have hb : ∀ T ⊆ Finset.range d, ∑ k ∈ T, ‖a.val k k‖ ≤ 1.1 * d := by
    intro T hT
    refine (Finset.sum_le_sum_of_subset_of_nonneg hT fun _ _ _ => norm_nonneg _).trans ?_
    calc ∑ k ∈ Finset.range d, ‖a.val k k‖ ≤ ∑ _k ∈ Finset.range d, (1.1 : ℝ) :=
          Finset.sum_le_sum fun k hk => ha.entry (Finset.mem_range.mp hk) (Finset.mem_range.mp hk)
      _ = _ := by simp; ring
  have hdd : 0 ≤ d * u * d := by positivity
  have htr := h.trace a
  rw [ha.rows] at htr
  have hN : 2 * (d : ℝ) * (u * (2 * (1.1 * d))) ≤ 1.1 * d := by
    have : d * u * d ≤ 1 / 100 * d := mul_le_mul_of_nonneg_right (hdu.trans hu) (by linarith)
    norm_num at *; nlinarith
  have h1 : ‖M.trace a - ∑ k ∈ Finset.range d, a.val k k‖ ≤ 1.42 * ((2 * d - 1 : ℕ) * (u * (2 * (1.1 * d)))) := by
    refine norm_le_of_parts ?_ ?_
    · rw [Complex.sub_re, Complex.re_sum]
      refine h.sums_near (b := 1.1 * d) (by norm_num; linarith) (by norm_num; linarith) (fun T hT => ?_) hN htr.1
      exact (Finset.abs_sum_le_sum_abs _ _).trans ((Finset.sum_le_sum fun k _ => Complex.abs_re_le_norm _).trans (hb T hT))
    · rw [Complex.sub_im, Complex.im_sum]
      refine h.sums_near (b := 1.1 * d) (by norm_num; linarith) (by norm_num; linarith) (fun T hT => ?_) hN htr.2
      exact (Finset.abs_sum_le_sum_abs _ _).trans ((Finset.sum_le_sum fun k _ => Complex.abs_im_le_norm _).trans (hb T hT))
  simp only [arith, Arr.trace, ha.rows]
  have h2 := (norm_sum_le _ _).trans (hb _ le_rfl)
  set T := ∑ k ∈ Finset.range d, a.val k k
  set S := M.trace a
  have h3 : ‖S - T‖ ≤ 6.3 * (d * u) * d := by
    refine h1.trans ?_
    have hc : ((2 * d - 1 : ℕ) : ℝ) ≤ 2 * d := by exact_mod_cast Nat.sub_le _ _
    have := mul_le_mul_of_nonneg_right hc (by positivity : 0 ≤ u * (2 * (1.1 * (d : ℝ))))
    norm_num at *; nlinarith
  have h4 : |‖S‖ - ‖T‖| ≤ 6.3 * (d * u) * d := (abs_norm_sub_norm_le _ _).trans h3
  have h5 : ‖S‖ ≤ 1.2 * d := by
    have := (abs_le.mp h4).2
    have : 6.3 * (d * u) * d ≤ 0.1 * d := mul_le_mul_of_nonneg_right (by norm_num at *; linarith) (by linarith)
    norm_num at *; linarith
  have h6 := h.near (x := ‖S‖) (b := 1.2 * d) (by norm_num; linarith) (by norm_num; linarith)
    (by rw [abs_of_nonneg (norm_nonneg _)]; exact h5)
  have hdp : (0 : ℝ) < d := by linarith
  have h7 : |M.round ‖S‖ / d - ‖T‖ / d| ≤ 7.5 * (D * u) := by
    rw [← sub_div, abs_div, abs_of_pos hdp, div_le_iff₀ hdp]
    calc |M.round ‖S‖ - ‖T‖| = |(M.round ‖S‖ - ‖S‖) + (‖S‖ - ‖T‖)| := by congr 1; ring
      _ ≤ u * (1.2 * d) + 6.3 * (d * u) * d := (abs_add_le _ _).trans (add_le_add h6 h4)
      _ ≤ 1.2 * (D * u) * d + 6.3 * (D * u) * d := by
        refine add_le_add ?_ (mul_le_mul_of_nonneg_right (by linarith) hdp.le)
        nlinarith [mul_le_mul_of_nonneg_right huD hdp.le]
      _ = _ := by ring
  have h8 : |‖T‖ / d| ≤ 1.1 := by
    rw [abs_of_nonneg (by positivity), div_le_iff₀ hdp]; exact h2
  have h9 : |M.round ‖S‖ / d| ≤ 1.3 := by
    calc |M.round ‖S‖ / d| = |‖T‖ / d + (M.round ‖S‖ / d - ‖T‖ / d)| := by congr 1; ring
      _ ≤ _ := (abs_add_le _ _).trans (by norm_num at *; linarith)
  have h10 := h.near (by norm_num) (by norm_num; linarith) h9
  set q := M.round (M.round ‖S‖ / d)
  have h11 : |q - ‖T‖ / d| ≤ 8.8 * (D * u) := by
    calc |q - ‖T‖ / d| = |(q - M.round ‖S‖ / d) + (M.round ‖S‖ / d - ‖T‖ / d)| := by congr 1; ring
      _ ≤ _ := (abs_add_le _ _).trans (by norm_num at *; linarith)
  have h12 : |1 - q| ≤ 3 := by
    calc |1 - q| = |1 + (-(‖T‖ / d) + -(q - ‖T‖ / d))| := by congr 1; ring
      _ ≤ |1| + (|-(‖T‖ / d)| + |-(q - ‖T‖ / d)|) := (abs_add_le _ _).trans (add_le_add le_rfl (abs_add_le _ _))
      _ ≤ _ := by rw [abs_neg, abs_neg, abs_one]; norm_num at *; linarith
  have h13 := h.near (by norm_num) (by linarith) h12
  calc |M.round (1 - q) - (1 - ‖T‖ / d)| = |(M.round (1 - q) - (1 - q)) + -(q - ‖T‖ / d)| := by congr 1; ring
    _ ≤ u * 3 + 8.8 * (D * u) := (abs_add_le _ _).trans (add_le_add h13 (by rw [abs_neg]; exact h11))
    _ ≤ _ := by norm_num at *; linarith

/-- Roots of nearby numbers. -/
theorem root_near {w : ℂ} {e : ℝ} (hw : ‖w - 1‖ ≤ e) (he : e ≤ 1 / 2) (hd : 0 < d) :
    ‖w ^ (1 / (d : ℂ)) - 1‖ ≤ 3 * e := by
  have hd1 : (1 : ℝ) ≤ d := by exact_mod_cast hd
  have hw0 : w ≠ 0 := by
    rintro rfl
    norm_num at hw; linarith
  have h1 := Complex.norm_log_one_add_half_le_self (z := w - 1) (hw.trans he)
  rw [add_sub_cancel] at h1
  have h2 : ‖Complex.log w * (1 / (d : ℂ))‖ ≤ 3 / 2 * e := by
    rw [norm_mul, norm_div, norm_one, Complex.norm_natCast]
    have : 1 / (d : ℝ) ≤ 1 := by rw [div_le_one (by linarith)]; exact hd1
    have h0 : 0 ≤ 1 / (d : ℝ) := by positivity
    nlinarith [norm_nonneg (Complex.log w), norm_nonneg (w - 1)]
  rw [Complex.cpow_def_of_ne_zero hw0]
  refine (Complex.norm_exp_sub_one_le (h2.trans (by linarith))).trans (by linarith)

theorem Ok.balance_near (h : M.Ok D u) (hD : 1 ≤ D) (hu : D * u ≤ 1 / 100) (hd : d ≤ D) {a : Arr} (ha : a.Small d)
    (hV : ∃ V ∈ unitaryGroup (Fin d) ℂ, ‖a.toMatrix d - V‖ ≤ 1 / 100) (t : ℝ) :
    ∃ z : ℂ, z ^ d = 1 / a.det ∧ ∀ i < d, ∀ j < d, ‖(M.arith t).balance d a i j - z * a.val i j‖ ≤ 16 * D * u := by
  have hD' : (1 : ℝ) ≤ D := by exact_mod_cast hD
  have hu0 := h.u_nonneg
  have hu1 : u ≤ 1 / 100 := by nlinarith
  have huD : u ≤ D * u := le_mul_of_one_le_left hu0 hD'
  rcases Nat.eq_zero_or_pos d with rfl | hd0
  · refine ⟨0, ?_, by simp⟩
    rw [Arr.det_eq ha.rows]; simp
  have hdet := h.det d hd a ha hV
  obtain ⟨V, hVu, hV⟩ := hV
  obtain ⟨hlo, hhi⟩ := det_perturb hd0 hVu (X := V) (ε := 0) (by simp) (Unitary.norm_det_of_unitary hVu) hV le_rfl
    (by norm_num) (by norm_num)
  rw [add_sub_cancel, ← Arr.det_eq ha.rows] at hlo hhi
  set x := a.det
  set y := M.det a
  have hx0 : 0 < ‖x‖ := lt_of_lt_of_le (pow_pos (by norm_num) d) hlo
  have hx : x ≠ 0 := norm_pos_iff.mp hx0
  have hd1 : d ≠ 0 := hd0.ne'
  have hyx : ‖y - x‖ ≤ 1 / 100 * ‖x‖ := hdet.trans (mul_le_mul_of_nonneg_right hu hx0.le)
  have hylo : (0.97 : ℝ) ^ d ≤ ‖y‖ := by
    have h1 : 0.99 * ‖x‖ ≤ ‖y‖ := by
      have := norm_sub_norm_le x y
      rw [norm_sub_rev] at this
      norm_num at *; linarith
    refine le_trans ?_ h1
    refine le_trans ?_ (mul_le_mul_of_nonneg_left hlo (by norm_num))
    refine le_trans ?_ (mul_le_mul_of_nonneg_right (pow_le_of_le_one (by norm_num : (0 : ℝ) ≤ 0.99) (by norm_num) hd1) (by positivity))
    rw [← mul_pow]
    exact pow_le_pow_left₀ (by norm_num) (by norm_num) d
  have hyhi : ‖y‖ ≤ 2 ^ d := by
    have h1 : ‖y‖ ≤ 1.01 * ‖x‖ := by
      have := norm_sub_norm_le y x
      norm_num at *; linarith
    refine h1.trans ((mul_le_mul_of_nonneg_left hhi (by norm_num)).trans ?_)
    refine (mul_le_mul_of_nonneg_right (le_self_pow₀ (by norm_num : (1 : ℝ) ≤ 1.01) hd1) (by positivity)).trans ?_
    rw [← mul_pow]
    exact pow_le_pow_left₀ (by norm_num) (by norm_num) d
  have hy0 : 0 < ‖y‖ := lt_of_lt_of_le (pow_pos (by norm_num) d) hylo
  have hy : y ≠ 0 := norm_pos_iff.mp hy0
  have hph := h.phase d hd y ((pow_le_pow_left₀ (by norm_num) (by norm_num) d).trans hylo) hyhi
  set r := (1 / y) ^ (1 / (d : ℂ))
  have hr : r ^ d = 1 / y := Unitary.phase_pow hd0 _
  have hrn : ‖r‖ ≤ 1.04 := by
    refine le_of_pow_le_pow_left₀ hd1 (by norm_num) ?_
    rw [← norm_pow, hr, norm_div, norm_one, div_le_iff₀ hy0]
    refine le_trans ?_ (mul_le_mul_of_nonneg_left hylo (by positivity))
    rw [← mul_pow]
    exact one_le_pow₀ (by norm_num)
  have hw : ‖y / x - 1‖ ≤ D * u := by
    rw [div_sub_one hx, norm_div, div_le_iff₀ hx0]; exact hdet
  have hroot := root_near hw (by linarith) hd0
  set s := (y / x) ^ (1 / (d : ℂ))
  have hs : s ^ d = y / x := by
    have := Unitary.phase_pow hd0 (x / y)
    rwa [one_div_div] at this
  refine ⟨r * s, by rw [mul_pow, hr, hs]; field_simp, fun i hi j hj => ?_⟩
  have hpn : ‖M.phase d y‖ ≤ 1.12 := by
    calc ‖M.phase d y‖ = ‖r + (M.phase d y - r)‖ := by congr 1; ring
      _ ≤ _ := (norm_add_le _ _).trans (by norm_num at *; linarith)
  have hm := h.mul_near hD hu1 hpn ((ha.entry hi hj).trans (by norm_num))
  have hz : ‖M.phase d y - r * s‖ ≤ 4.2 * (D * u) := by
    calc ‖M.phase d y - r * s‖ = ‖(M.phase d y - r) + -(r * (s - 1))‖ := by congr 1; ring
      _ ≤ D * u + 1.04 * (3 * (D * u)) := by
        refine (norm_add_le _ _).trans (add_le_add hph ?_)
        rw [norm_neg, norm_mul]
        exact mul_le_mul hrn hroot (norm_nonneg _) (by norm_num)
      _ ≤ _ := by norm_num at *; linarith
  show ‖M.mul (M.phase d y) (a.val i j) - r * s * a.val i j‖ ≤ _
  calc _ = ‖(M.mul (M.phase d y) (a.val i j) - M.phase d y * a.val i j) + (M.phase d y - r * s) * a.val i j‖ := by congr 1; ring
    _ ≤ 11 * u + 4.2 * (D * u) * 1.1 := by
      refine (norm_add_le _ _).trans (add_le_add hm ?_)
      rw [norm_mul]
      exact mul_le_mul hz (ha.entry hi hj) (norm_nonneg _) (by positivity)
    _ ≤ _ := by norm_num at *; linarith

/-- Sums with at most one term that is not zero, and that one is 1, are exact. -/
theorem Ok.adds_bit (h : M.Ok D u) {g : ℕ → ℝ} {k₀ : ℕ} (h1 : g k₀ = 0 ∨ g k₀ = 1) {S : Finset ℕ} {x : ℝ}
    (hx : M.Adds g S x) (h0 : ∀ k ∈ S, k ≠ k₀ → g k = 0) : x = if k₀ ∈ S then g k₀ else 0 := by
  have hr : M.round (g k₀) = g k₀ := by rcases h1 with h1 | h1 <;> simp [h1, h.zero, h.one]
  induction hx with
  | exact k =>
    by_cases hk : k = k₀
    · simp [hk]
    · rw [h0 k (by simp) hk, if_neg (by simpa using Ne.symm hk)]
  | rounded k =>
    by_cases hk : k = k₀
    · simp [hk, hr]
    · rw [h0 k (by simp) hk, h.zero, if_neg (by simpa using Ne.symm hk)]
  | @add S T x y _ _ hd ih1 ih2 =>
    rw [ih1 fun k hk => h0 k (Finset.mem_union_left _ hk), ih2 fun k hk => h0 k (Finset.mem_union_right _ hk)]
    by_cases hS : k₀ ∈ S
    · have hT : k₀ ∉ T := Finset.disjoint_left.mp hd hS
      simp [hS, hT, hr]
    · by_cases hT : k₀ ∈ T
      · simp [hS, hT, hr]
      · simp [hS, hT, h.zero]

theorem Ok.sums_bit (h : M.Ok D u) {g : ℕ → ℝ} {k₀ N : ℕ} (hk : k₀ < N) (h0 : ∀ k < N, k ≠ k₀ → g k = 0)
    (h1 : g k₀ = 0 ∨ g k₀ = 1) {x : ℝ} (hx : M.Sums N g x) : x = g k₀ := by
  unfold Sums at hx
  rw [if_neg (by omega)] at hx
  rw [h.adds_bit h1 hx fun k hk => h0 k (Finset.mem_range.mp hk), if_pos (Finset.mem_range.mpr hk)]

theorem Ok.dot_bit (h : M.Ok D u) {x y : ℕ → ℂ} {k₀ n : ℕ} {z : ℂ} (hz : M.Dot n x y z) (hk : k₀ < n)
    (hx : ∀ k, x k = 0 ∨ x k = 1) (hy : ∀ k, y k = 0 ∨ y k = 1) (h0 : ∀ k < n, k ≠ k₀ → x k = 0) : z = x k₀ * y k₀ := by
  have hxi : ∀ k, (x k).im = 0 := fun k => by rcases hx k with h | h <;> simp [h]
  have hyi : ∀ k, (y k).im = 0 := fun k => by rcases hy k with h | h <;> simp [h]
  have hx0 : ∀ k < n, k ≠ k₀ → (x k).re = 0 := fun k hn hk => by simp [h0 k hn hk]
  have hre : ∀ k < 2 * n, k ≠ 2 * k₀ → reTerms x y k = 0 := by
    intro k hn hk
    rcases Nat.even_or_odd' k with ⟨m, rfl | rfl⟩
    · rw [reTerms_even, hx0 m (by omega) (by omega), zero_mul]
    · rw [reTerms_odd, hxi, zero_mul, neg_zero]
  have him : ∀ k, imTerms x y k = 0 := by
    intro k
    rcases Nat.even_or_odd' k with ⟨m, rfl | rfl⟩
    · rw [imTerms_even, hyi, mul_zero]
    · rw [imTerms_odd, hxi, zero_mul]
  have hbit : reTerms x y (2 * k₀) = 0 ∨ reTerms x y (2 * k₀) = 1 := by
    rw [reTerms_even]
    rcases hx k₀ with h | h <;> rcases hy k₀ with h' | h' <;> simp [h, h']
  refine Complex.ext ?_ ?_
  · rw [h.sums_bit (by omega) hre hbit hz.1, reTerms_even, Complex.mul_re, hxi]; ring
  · rw [h.sums_bit (k₀ := 0) (by omega) (fun k _ _ => him k) (.inl (him 0)) hz.2, him, Complex.mul_im, hxi, hyi]; ring

theorem identity_bit (d i j : ℕ) : (Arr.identity d).val i j = 0 ∨ (Arr.identity d).val i j = 1 := by
  unfold Arr.identity; by_cases h : i = j <;> simp [h]

theorem Ok.mul_bit (h : M.Ok D u) {y : ℂ} (hy : y = 0 ∨ y = 1) : M.mul 1 y = y := by
  have := h.dot_bit (h.mul 1 y) (k₀ := 0) one_pos (fun _ => .inr rfl) (fun _ => hy) fun k hk hk' => by omega
  rw [this, one_mul]

/-- The matrix operations of such a machine. -/
theorem Ok.rounds (h : M.Ok D u) (hD : 1 ≤ D) (hu : D * u ≤ 1 / 100) (t : ℝ) : (M.arith t).Rounds D (16 * D * u) where
  mul d hd a b ha hb i hi j hj := h.matmul_near hD hu hd ha hb hi hj t
  kron d d' hdd a b ha hb i hi j hj := by
    have hu0 := h.u_nonneg
    have hD' : (1 : ℝ) ≤ D := by exact_mod_cast hD
    have hu1 : u ≤ 1 / 100 := by nlinarith
    have huD : u ≤ D * u := le_mul_of_one_le_left hu0 hD'
    have hd' : 0 < d' := Nat.pos_of_ne_zero (by rintro rfl; simp at hi)
    refine (h.mul_near hD hu1 ?_ ?_).trans (by linarith)
    · rw [hb.rows, hb.cols]
      exact (ha.entry (Nat.div_lt_of_lt_mul (by rwa [mul_comm])) (Nat.div_lt_of_lt_mul (by rwa [mul_comm]))).trans (by norm_num)
    · rw [hb.rows, hb.cols]
      exact (hb.entry (Nat.mod_lt _ hd') (Nat.mod_lt _ hd')).trans (by norm_num)
  balance d hd a ha hV := h.balance_near hD hu hd ha hV t
  distance d hd a ha := h.distance_near hD hu hd ha t
  entries d hd name args a hargs ha i hi j hj := by
    have := h.entries d hd name args a hargs ha i hi j hj
    have hu0 := h.u_nonneg
    have : 0 ≤ D * u := by positivity
    show ‖M.entries name args a i j - a.val i j‖ ≤ _
    linarith
  evolution d hd k a x hx ha i hi j hj := by
    have := h.evolution d hd k a x hx ha i hi j hj
    have hu0 := h.u_nonneg
    have : 0 ≤ D * u := by positivity
    show ‖M.evolution k x a i j - a.val i j‖ ≤ _
    linarith
  one_mul d _ i hi j hj := by
    have h1 := h.dot (Arr.identity d) (Arr.identity d).ct i j
    rw [show (Arr.identity d).cols = d from rfl] at h1
    refine (h.dot_bit h1 hi (fun k => identity_bit d i k) (fun k => ?_) fun k _ hk => ?_).trans ?_
    · show star ((Arr.identity d).val j k) = 0 ∨ star ((Arr.identity d).val j k) = 1
      rcases identity_bit d j k with h | h <;> simp [h]
    · unfold Arr.identity; simp [Ne.symm hk]
    · unfold Arr.ct Arr.identity
      by_cases hij : i = j <;> simp [hij, eq_comm]
  one_balance d hd := by
    funext i j
    show M.mul (M.phase d (M.det (Arr.identity d))) _ = _
    rw [h.det_one d hd, h.phase_one d hd, h.mul_bit (identity_bit d i j)]

end Machine

end Stoq
