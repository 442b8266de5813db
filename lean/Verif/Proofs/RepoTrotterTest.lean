import Verif.Proofs.Quaternion
import Verif.Proofs.RepoHamiltonianSearch
import Verif.Props.TrotterRandom

/-! # The test of Trotter sequences: the steps as quaternions, the distribution of the orders, and what decides -/

namespace Stoq

open Matrix Tests MeasureTheory

open scoped Matrix.Norms.L2Operator

/-! ## The distribution of the orders -/

/-- Independent draws. -/
noncomputable def drawsLaw {α : Type} (p : PMF α) : ℕ → PMF (List α)
  | 0 => PMF.pure []
  | k + 1 => p.bind fun o => (drawsLaw p k).map (o :: ·)

/-- The orders reached by repeated shuffles are independent and uniformly distributed. -/
theorem reshuffle_law {α : Type} [Countable α] {l : List α} (hl : l.Nodup) {B : ℕ} (hB : l.length ≤ B) (k : ℕ) :
    ∀ l' : List α, l'.Perm l → Rng.HasLaw B (reshuffle k l') (drawsLaw (shuffleLaw l) k) := by
  induction k with
  | zero => intro l' _; exact Rng.HasLaw.pure _
  | succ k ih =>
    intro l' hl'
    unfold reshuffle drawsLaw
    have h := Rng.HasLaw.shuffle (B := B) (l := l') (by rw [hl'.length_eq]; exact hB)
    rw [shuffleLaw_perm hl hl'] at h
    refine h.bind fun o ho => (ih o ?_).map _
    classical
    rw [PMF.mem_support_iff, shuffleLaw_apply hl] at ho
    by_contra hc
    exact ho (if_neg hc)

namespace Tests

theorem perm_pair {o : List ℕ} (h : o.Perm [0, 1]) : o = [0, 1] ∨ o = [1, 0] := by
  obtain ⟨a, b, rfl⟩ := List.length_eq_two.mp h.length_eq
  have ha := h.mem_iff.mp (List.mem_cons_self (a := a) (l := [b]))
  have hb := h.mem_iff.mp (show b ∈ [a, b] by simp)
  have hn := h.nodup_iff.mpr (by decide)
  simp only [List.mem_cons, List.not_mem_nil, or_false] at ha hb
  rcases ha with rfl | rfl <;> rcases hb with rfl | rfl <;> simp at hn ⊢

theorem pair_tsum (g : List ℕ → ENNReal) :
    ∑' o, shuffleLaw [0, 1] o * g o = 2⁻¹ * g [0, 1] + 2⁻¹ * g [1, 0] := by
  have hl : ([0, 1] : List ℕ).Nodup := by decide
  have h0 : ∀ o ∉ ({[0, 1], [1, 0]} : Finset (List ℕ)), shuffleLaw [0, 1] o * g o = 0 := by
    intro o ho
    rw [shuffleLaw_apply hl, if_neg, zero_mul]
    intro h
    rcases perm_pair h with rfl | rfl <;> simp at ho
  rw [tsum_eq_sum h0, Finset.sum_pair (by decide), shuffleLaw_apply hl, shuffleLaw_apply hl, if_pos (.refl _),
    if_pos (List.Perm.swap 0 1 [])]
  norm_num

/-- Among four continuations at most one leads into the set. -/
theorem draws_quarter {E : Set (List (List ℕ))} {k : ℕ}
    (h : ∀ L : List (List ℕ), ∀ o₁ o₂ o₁' o₂', o₁ ∈ [[0, 1], [1, 0]] → o₂ ∈ [[0, 1], [1, 0]] → o₁' ∈ [[0, 1], [1, 0]] →
      o₂' ∈ [[0, 1], [1, 0]] → o₁ :: o₂ :: L ∈ E → o₁' :: o₂' :: L ∈ E → o₁ = o₁' ∧ o₂ = o₂') :
    (drawsLaw (shuffleLaw [0, 1]) (k + 2)).toOuterMeasure E ≤ ENNReal.ofReal (1 / 4) := by
  set q := drawsLaw (shuffleLaw [0, 1]) k with hq
  have e1 : ∀ o₁ : List ℕ, ((drawsLaw (shuffleLaw [0, 1]) (k + 1)).map (o₁ :: ·)).toOuterMeasure E =
      2⁻¹ * q.toOuterMeasure {L | o₁ :: [0, 1] :: L ∈ E} + 2⁻¹ * q.toOuterMeasure {L | o₁ :: [1, 0] :: L ∈ E} := by
    intro o₁
    rw [PMF.toOuterMeasure_map_apply, drawsLaw, PMF.toOuterMeasure_bind_apply, pair_tsum, PMF.toOuterMeasure_map_apply,
      PMF.toOuterMeasure_map_apply]
    rfl
  rw [drawsLaw, PMF.toOuterMeasure_bind_apply, pair_tsum, e1, e1]
  have h4 : ENNReal.ofReal (1 / 4) = 2⁻¹ * 2⁻¹ := by
    rw [ENNReal.ofReal_div_of_pos (by norm_num), ENNReal.ofReal_one, one_div, ← ENNReal.mul_inv (by simp) (by simp)]
    norm_num
  rw [mul_add, mul_add, ← mul_assoc, ← mul_assoc, ← mul_assoc, ← mul_assoc, ← h4, ← mul_add, ← mul_add, ← mul_add]
  refine mul_le_of_le_one_right' ?_
  simp only [PMF.toOuterMeasure_apply]
  rw [← ENNReal.tsum_add, ← ENNReal.tsum_add, ← ENNReal.tsum_add, ← q.tsum_coe]
  refine ENNReal.tsum_le_tsum fun L => ?_
  have d : ∀ o₁ o₂ o₁' o₂' : List ℕ, o₁ ∈ [[0, 1], [1, 0]] → o₂ ∈ [[0, 1], [1, 0]] → o₁' ∈ [[0, 1], [1, 0]] →
      o₂' ∈ [[0, 1], [1, 0]] → (o₁ ≠ o₁' ∨ o₂ ≠ o₂') → o₁ :: o₂ :: L ∈ E → ¬ o₁' :: o₂' :: L ∈ E := by
    intro a b a' b' m1 m2 m3 m4 hne hm hm'
    obtain ⟨rfl, rfl⟩ := h L a b a' b' m1 m2 m3 m4 hm hm'
    simp at hne
  classical
  simp only [Set.indicator_apply, Set.mem_ofPred_eq]
  by_cases c1 : [0, 1] :: [0, 1] :: L ∈ E
  · rw [if_pos c1, if_neg (d _ _ _ _ (by simp) (by simp) (by simp) (by simp) (by simp) c1),
      if_neg (d _ _ _ _ (by simp) (by simp) (by simp) (by simp) (by simp) c1),
      if_neg (d _ _ _ _ (by simp) (by simp) (by simp) (by simp) (by simp) c1)]
    simp
  by_cases c2 : [0, 1] :: [1, 0] :: L ∈ E
  · rw [if_neg c1, if_pos c2,
      if_neg (d _ _ _ _ (by simp) (by simp) (by simp) (by simp) (by simp) c2),
      if_neg (d _ _ _ _ (by simp) (by simp) (by simp) (by simp) (by simp) c2)]
    simp
  by_cases c3 : [1, 0] :: [0, 1] :: L ∈ E
  · rw [if_neg c1, if_neg c2, if_pos c3,
      if_neg (d _ _ _ _ (by simp) (by simp) (by simp) (by simp) (by simp) c3)]
    simp
  · rw [if_neg c1, if_neg c2, if_neg c3, zero_add, zero_add, zero_add]
    split <;> simp

/-- Every list of orders has a positive probability. -/
theorem draws_replicate (k : ℕ) :
    ENNReal.ofReal ((1 / 2) ^ k) ≤ drawsLaw (shuffleLaw [0, 1]) k (List.replicate k [0, 1]) := by
  induction k with
  | zero => simp [drawsLaw]
  | succ k ih =>
    rw [drawsLaw, PMF.bind_apply, pair_tsum, pow_succ, mul_comm, ENNReal.ofReal_mul (by norm_num)]
    refine le_trans (mul_le_mul' (le_of_eq ?_) (ih.trans ?_)) le_self_add
    · rw [one_div, ENNReal.ofReal_inv_of_pos (by norm_num)]; norm_num
    · rw [PMF.map_apply, List.replicate_succ]
      refine le_trans ?_ (ENNReal.le_tsum (List.replicate k [0, 1]))
      rw [if_pos rfl]

/-! ## The steps of the test -/

/-- The numbers that occur, with bounds. -/
theorem trotter_numbers : ∃ ca sa cb sb : ℝ, Real.cos 0.1234 = ca ∧ Real.sin 0.1234 = sa ∧ Real.cos 0.1851 = cb ∧
    Real.sin 0.1851 = sb ∧ ca ^ 2 + sa ^ 2 = 1 ∧ cb ^ 2 + sb ^ 2 = 1 ∧
    (0.992374 ≤ ca ∧ ca ≤ 0.992399) ∧ (0.123074 ≤ sa ∧ sa ≤ 0.1231) ∧ (0.982807 ≤ cb ∧ cb ≤ 0.982931) ∧
    (0.183981 ≤ sb ∧ sb ≤ 0.184105) := by
  refine ⟨_, _, _, _, rfl, rfl, rfl, rfl, Real.cos_sq_add_sin_sq _, Real.cos_sq_add_sin_sq _, ?_, ?_, ?_, ?_⟩
  · have := abs_le.mp (Real.cos_bound (x := 0.1234) (by norm_num [abs_of_pos]))
    norm_num [abs_of_pos] at this ⊢
    constructor <;> linarith
  · have := abs_le.mp (Real.sin_bound (x := 0.1234) (by norm_num [abs_of_pos]))
    norm_num [abs_of_pos] at this ⊢
    constructor <;> linarith
  · have := abs_le.mp (Real.cos_bound (x := 0.1851) (by norm_num [abs_of_pos]))
    norm_num [abs_of_pos] at this ⊢
    constructor <;> linarith
  · have := abs_le.mp (Real.sin_bound (x := 0.1851) (by norm_num [abs_of_pos]))
    norm_num [abs_of_pos] at this ⊢
    constructor <;> linarith

/-- The time evolution for one step. -/
theorem trotter_ideal : ∃ e k : ℝ, evolution (xyTerms 2 (-3)).sum (1.234 / 20) = quat e (0.1234 * k) (-(0.1851 * k)) 0 ∧
    (0.975127 ≤ e ∧ e ≤ 0.975383) ∧ (0.991178 ≤ k ∧ k ≤ 0.992326) ∧ e ^ 2 + (0.1234 * k) ^ 2 + (0.1851 * k) ^ 2 = 1 := by
  obtain ⟨c, hc0, hc⟩ : ∃ c : ℝ, 0.2224 ≤ c ∧ c ^ 2 = 0.1234 ^ 2 + 0.1851 ^ 2 := by
    refine ⟨√(0.1234 ^ 2 + 0.1851 ^ 2), ?_, Real.sq_sqrt (by norm_num)⟩
    refine Real.le_sqrt_of_sq_le ?_
    norm_num
  have hc1 : |c| ≤ 1 := by
    rw [abs_of_pos (by linarith)]
    nlinarith
  have hc4 : |c| ^ 4 = (0.1234 ^ 2 + 0.1851 ^ 2) ^ 2 := by
    rw [← hc, abs_of_pos (by linarith)]; ring
  have h1 := abs_le.mp (Real.cos_bound hc1)
  have h2 := abs_le.mp (Real.sin_bound hc1)
  have hc5 : |c| ^ 5 = (0.1234 ^ 2 + 0.1851 ^ 2) ^ 2 * c := by
    rw [← hc, abs_of_pos (by linarith)]; ring
  rw [hc4] at h1
  rw [hc5] at h2
  have hcpos : 0 < c := by linarith
  refine ⟨Real.cos c, Real.sin c / c, ?_, ?_, ?_, ?_⟩
  · have := quat.evolution_xy (a := 2) (b := -3) (t := 1.234 / 20) (c := c) hcpos.ne' (by rw [hc]; norm_num)
    have e : (xyTerms 2 (-3)).sum = ((2 : ℝ) : ℂ) • Gate.X + ((-3 : ℝ) : ℂ) • Gate.Y := by
      unfold xyTerms
      rw [List.sum_cons, List.sum_cons, List.sum_nil, add_zero]
    rw [e]
    refine Eq.trans this ?_
    congr 1 <;> norm_num
  · rw [hc] at h1
    norm_num at h1 ⊢
    constructor <;> linarith
  · rw [le_div_iff₀ hcpos, div_le_iff₀ hcpos]
    have h3 : c ^ 3 = (0.1234 ^ 2 + 0.1851 ^ 2) * c := by rw [← hc]; ring
    rw [h3] at h2
    norm_num at h2 hc0 ⊢
    constructor <;> nlinarith
  · have := Real.cos_sq_add_sin_sq c
    have h3 : (0.1234 * (Real.sin c / c)) ^ 2 + (0.1851 * (Real.sin c / c)) ^ 2 = Real.sin c ^ 2 := by
      rw [mul_pow, mul_pow, ← add_mul, ← hc, div_pow]
      field_simp
    rw [add_assoc, h3, this]

/-- The two orders of a step. -/
noncomputable def stepOf (o : List ℕ) : Matrix (Fin (2 ^ 1)) (Fin (2 ^ 1)) ℂ := trotterMatrix (xyTerms 2 (-3)) (1.234 / 20) o

theorem xy_herm : ∀ M ∈ xyTerms 2 (-3), M.IsHermitian := by
  intro M hM
  simp only [xyTerms, List.mem_cons, List.not_mem_nil, or_false] at hM
  rcases hM with rfl | rfl
  · exact (X_scaled (a := 2) (by norm_num)).1
  · exact (Y_scaled (a := -3) (by norm_num)).1

theorem stepOf_unitary (o : List ℕ) : stepOf o ∈ unitaryGroup (Fin (2 ^ 1)) ℂ := trotterMatrix_unitary' xy_herm _ o

theorem step_eq {ca sa cb sb : ℝ} (h1 : Real.cos 0.1234 = ca) (h2 : Real.sin 0.1234 = sa) (h3 : Real.cos 0.1851 = cb)
    (h4 : Real.sin 0.1851 = sb) :
    stepOf [0, 1] = quat (ca * cb) (sa * cb) (-(ca * sb)) (-(sa * sb)) ∧
    stepOf [1, 0] = quat (ca * cb) (sa * cb) (-(ca * sb)) (sa * sb) := by
  have ex := quat.evolution_x 2 (1.234 / 20)
  have ey := quat.evolution_y (-3) (1.234 / 20)
  rw [show (2 : ℝ) * (1.234 / 20) = 0.1234 by norm_num, h1, h2] at ex
  rw [show (-3 : ℝ) * (1.234 / 20) = -0.1851 by norm_num, Real.cos_neg, Real.sin_neg, h3, h4] at ey
  constructor
  · have : stepOf [0, 1] = evolution (((-3 : ℝ) : ℂ) • Gate.Y) (1.234 / 20) * evolution (((2 : ℝ) : ℂ) • Gate.X) (1.234 / 20) := by
      simp [stepOf, trotterMatrix, xyTerms]
    rw [this, ex, ey, quat.mul]
    congr 1 <;> ring
  · have : stepOf [1, 0] = evolution (((2 : ℝ) : ℂ) • Gate.X) (1.234 / 20) * evolution (((-3 : ℝ) : ℂ) • Gate.Y) (1.234 / 20) := by
      simp [stepOf, trotterMatrix, xyTerms]
    rw [this, ex, ey, quat.mul]
    congr 1 <;> ring

theorem mul_bounds {x y l u l' u' : ℝ} (hl : 0 ≤ l) (hl' : 0 ≤ l') (hx : l ≤ x ∧ x ≤ u) (hy : l' ≤ y ∧ y ≤ u') :
    l * l' ≤ x * y ∧ x * y ≤ u * u' :=
  ⟨mul_le_mul hx.1 hy.1 hl' (hl.trans hx.1), mul_le_mul hx.2 hy.2 (hl'.trans hy.1) (hl.trans (hx.1.trans hx.2))⟩

theorem sq_bound {x a : ℝ} (h1 : -a ≤ x) (h2 : x ≤ a) : x ^ 2 ≤ a ^ 2 := sq_le_sq' h1 h2

/-- One step: the mean of the two orders, the overlap of one order, and the symmetric step. -/
theorem step_bounds : (∀ o : List ℕ, o.Perm [0, 1] → ‖(1 / 2 : ℝ) • (stepOf o + stepOf o.reverse) -
      evolution (xyTerms 2 (-3)).sum (1.234 / 20)‖ ≤ 0.0019) ∧
    (∀ o : List ℕ, o.Perm [0, 1] → 1 - ((evolution (xyTerms 2 (-3)).sum (1.234 / 20))ᴴ * stepOf o).trace.re / (2 ^ 1 : ℕ) ≤ 0.00026) ∧
    ‖evolution (xyTerms 2 (-3)).sum (1.234 / 20) ^ 20 - stepOf [0, 1] ^ 20‖ ≤ 0.16 := by
  obtain ⟨ca, sa, cb, sb, h1, h2, h3, h4, h5, h6, b1, b2, b3, b4⟩ := trotter_numbers
  obtain ⟨e, k, h7, b5, b6, h8⟩ := trotter_ideal
  obtain ⟨s0, s1⟩ := step_eq h1 h2 h3 h4
  have c1 := mul_bounds (by norm_num) (by norm_num) b1 b3
  have c2 := mul_bounds (by norm_num) (by norm_num) b2 b3
  have c3 := mul_bounds (by norm_num) (by norm_num) b1 b4
  have c4 := mul_bounds (by norm_num) (by norm_num) b2 b4
  norm_num at c1 c2 c3 c4 b5 b6
  have dp : (ca * cb - e) ^ 2 ≤ 0.00034 ^ 2 := sq_bound (by norm_num; linarith) (by norm_num; linarith)
  have dx : (sa * cb - 0.1234 * k) ^ 2 ≤ 0.0015 ^ 2 := sq_bound (by norm_num; linarith) (by norm_num; linarith)
  have dy : (-(ca * sb) - -(0.1851 * k)) ^ 2 ≤ 0.00111 ^ 2 := sq_bound (by norm_num; linarith) (by norm_num; linarith)
  have dy' : (-sb - -(0.1851 * k)) ^ 2 ≤ 0.00064 ^ 2 := by
    norm_num at b4
    exact sq_bound (by norm_num; linarith) (by norm_num; linarith)
  have dz : (sa * sb) ^ 2 ≤ 0.02268 ^ 2 := sq_bound (by norm_num; linarith) (by norm_num; linarith)
  have hV : evolution (xyTerms 2 (-3)).sum (1.234 / 20) ∈ unitaryGroup (Fin (2 ^ 1)) ℂ := by
    rw [h7]
    exact quat.unitary (by rw [← h8]; ring)
  refine ⟨?_, ?_, ?_⟩
  · have key : (1 / 2 : ℝ) • (stepOf [0, 1] + stepOf [1, 0]) = quat (ca * cb) (sa * cb) (-(ca * sb)) 0 := by
      rw [s0, s1]
      ext i j
      fin_cases i <;> fin_cases j <;> simp [quat] <;> ring
    have h : ‖(1 / 2 : ℝ) • (stepOf [0, 1] + stepOf [1, 0]) - evolution (xyTerms 2 (-3)).sum (1.234 / 20)‖ ≤ 0.0019 := by
      rw [key, h7]
      refine le_trans (le_of_eq (congrArg norm (quat.sub _ _ _ _ _ _ _ _))) (quat.norm_le (by norm_num) ?_)
      norm_num at dp dx dy ⊢
      linarith
    intro o ho
    rcases perm_pair ho with rfl | rfl
    · exact h
    · rw [show ([1, 0] : List ℕ).reverse = [0, 1] from rfl, add_comm]; exact h
  · have h : ∀ z : ℝ, z ^ 2 ≤ 0.02268 ^ 2 → stepOf [] ∈ unitaryGroup (Fin (2 ^ 1)) ℂ →
        quat (ca * cb) (sa * cb) (-(ca * sb)) z ∈ unitaryGroup (Fin 2) ℂ →
        1 - ((evolution (xyTerms 2 (-3)).sum (1.234 / 20))ᴴ * quat (ca * cb) (sa * cb) (-(ca * sb)) z).trace.re / (2 ^ 1 : ℕ) ≤ 0.00026 := by
      intro z hz _ hu
      have h9 := re_overlap_ge (by norm_num) hV hu
      refine h9.trans ?_
      have e1 : ‖evolution (xyTerms 2 (-3)).sum (1.234 / 20) - quat (ca * cb) (sa * cb) (-(ca * sb)) z‖ ^ 2 =
          (ca * cb - e) ^ 2 + (sa * cb - 0.1234 * k) ^ 2 + (-(ca * sb) - -(0.1851 * k)) ^ 2 + z ^ 2 := by
        rw [h7]
        refine Eq.trans (congrArg (fun x => x ^ 2) (congrArg norm (quat.sub _ _ _ _ _ _ _ _))) ?_
        rw [quat.norm_sq]
        ring
      rw [e1]
      norm_num at dp dx dy hz ⊢
      linarith
    intro o ho
    rcases perm_pair ho with rfl | rfl
    · have hu := stepOf_unitary [0, 1]
      rw [s0] at hu ⊢
      exact h _ (by rw [neg_sq]; exact dz) (stepOf_unitary _) hu
    · have hu := stepOf_unitary [1, 0]
      rw [s1] at hu ⊢
      exact h _ dz (stepOf_unitary _) hu
  · -- the symmetric step
    set h := Real.cos 0.0617 with hh
    set s := Real.sin 0.0617 with hs
    have t1 : h ^ 2 + s ^ 2 = 1 := Real.cos_sq_add_sin_sq _
    have t2 : ca = h ^ 2 - s ^ 2 := by
      rw [← h1, show (0.1234 : ℝ) = 2 * 0.0617 by norm_num, Real.cos_two_mul, ← hh]
      linarith
    have t3 : sa = 2 * s * h := by
      rw [← h2, show (0.1234 : ℝ) = 2 * 0.0617 by norm_num, Real.sin_two_mul]
    set C : Matrix (Fin (2 ^ 1)) (Fin (2 ^ 1)) ℂ := quat h s 0 0 with hC
    set S : Matrix (Fin (2 ^ 1)) (Fin (2 ^ 1)) ℂ := quat (ca * cb) (sa * cb) (-sb) 0 with hS
    have hCu : C ∈ unitaryGroup (Fin (2 ^ 1)) ℂ := quat.unitary (by linarith)
    have hCC : C * Cᴴ = 1 := mem_unitaryGroup_iff.mp hCu
    have hCC' : Cᴴ * C = 1 := mem_unitaryGroup_iff'.mp hCu
    have hSu : S ∈ unitaryGroup (Fin (2 ^ 1)) ℂ := quat.unitary (by
      have : (ca ^ 2 + sa ^ 2) * cb ^ 2 + sb ^ 2 = 1 := by rw [h5, one_mul, h6]
      rw [← this]; ring)
    have hconj : C * stepOf [0, 1] = S * C := by
      rw [s0, hC, hS]
      refine (quat.mul _ _ _ _ _ _ _ _).trans (Eq.trans ?_ (quat.mul _ _ _ _ _ _ _ _).symm)
      rw [t2, t3]
      congr 1 <;> first | ring1 | linear_combination (-(h * sb)) * t1 | linear_combination (-(s * sb)) * t1
    have hpow : C * stepOf [0, 1] ^ 20 = S ^ 20 * C := SemiconjBy.pow_right (show SemiconjBy C _ S from hconj) 20
    have hT : stepOf [0, 1] ^ 20 = Cᴴ * (S ^ 20 * C) := by
      rw [← hpow, ← Matrix.mul_assoc, hCC', Matrix.one_mul]
    have hC1 : ‖C - 1‖ ≤ 0.0617 := by
      have := Real.one_sub_sq_div_two_le_cos (x := 0.0617)
      rw [hC, ← quat.one]
      refine le_trans (le_of_eq (congrArg norm (quat.sub _ _ _ _ _ _ _ _))) (quat.norm_le (by norm_num) ?_)
      rw [← hh] at this
      norm_num at this ⊢
      linarith [t1, this, show (h - 1) ^ 2 + s ^ 2 = 2 - 2 * h by linarith [t1, show (h - 1) ^ 2 = h ^ 2 - 2 * h + 1 by ring]]
    have hC2 : ‖Cᴴ - 1‖ ≤ 0.0617 := by
      have : Cᴴ - 1 = (C - 1)ᴴ := by rw [conjTranspose_sub, conjTranspose_one]
      rw [this, l2_opNorm_conjTranspose]; exact hC1
    have hS20 := norm_unitary_le (pow_mem hSu 20)
    have hCn := norm_unitary_le hCu
    have d1 : ‖S ^ 20 - Cᴴ * (S ^ 20 * C)‖ ≤ 0.0617 + 0.0617 := by
      have : S ^ 20 - Cᴴ * (S ^ 20 * C) = -(S ^ 20 * (C - 1)) - (Cᴴ - 1) * (S ^ 20 * C) := by
        rw [Matrix.mul_sub, Matrix.sub_mul, Matrix.mul_one, Matrix.one_mul]; abel
      rw [this]
      refine (norm_sub_le _ _).trans (add_le_add ?_ ?_)
      · rw [norm_neg]
        refine (norm_mul_le _ _).trans ?_
        exact (mul_le_of_le_one_left (norm_nonneg _) hS20).trans hC1
      · refine (norm_mul_le _ _).trans ((mul_le_of_le_one_right (norm_nonneg _) ?_).trans hC2)
        exact (norm_mul_le _ _).trans (mul_le_one₀ hS20 (norm_nonneg _) hCn)
    have d2 : ‖evolution (xyTerms 2 (-3)).sum (1.234 / 20) ^ 20 - S ^ 20‖ ≤ (20 : ℕ) * 0.0017 := by
      refine (norm_pow_sub_pow_le (norm_unitary_le hV) (norm_unitary_le hSu) 20).trans ?_
      refine mul_le_mul_of_nonneg_left ?_ (Nat.cast_nonneg _)
      rw [norm_sub_rev, h7, hS]
      refine le_trans (le_of_eq (congrArg norm (quat.sub _ _ _ _ _ _ _ _))) (quat.norm_le (by norm_num) ?_)
      norm_num at dp dx dy' ⊢
      linarith
    rw [hT]
    refine (norm_sub_le_norm_sub_add_norm_sub _ (S ^ 20) _).trans ((add_le_add d2 d1).trans ?_)
    norm_num

/-- How far the two orders and their products are apart. -/
theorem two_steps : 4 / 100000000 < 1 - overlap (stepOf [0, 1]) (stepOf [1, 0]) ∧
    4 / 100000000 < 1 - overlap (stepOf [0, 1] * stepOf [0, 1]) (stepOf [1, 0] * stepOf [1, 0]) ∧
    4 / 100000000 < 1 - overlap (stepOf [0, 1] * stepOf [1, 0]) (stepOf [1, 0] * stepOf [0, 1]) := by
  obtain ⟨ca, sa, cb, sb, h1, h2, h3, h4, h5, h6, b1, b2, b3, b4⟩ := trotter_numbers
  obtain ⟨s0, s1⟩ := step_eq h1 h2 h3 h4
  have c1 := mul_bounds (by norm_num) (by norm_num) b1 b3
  have c2 := mul_bounds (by norm_num) (by norm_num) b2 b3
  have c4 := mul_bounds (by norm_num) (by norm_num) b2 b4
  norm_num at c1 c2 c4
  obtain ⟨p, hp⟩ : ∃ p, p = ca * cb := ⟨_, rfl⟩
  obtain ⟨x, hx⟩ : ∃ x, x = sa * cb := ⟨_, rfl⟩
  obtain ⟨y, hy⟩ : ∃ y, y = ca * sb := ⟨_, rfl⟩
  obtain ⟨z, hz⟩ : ∃ z, z = sa * sb := ⟨_, rfl⟩
  have hone : p ^ 2 + x ^ 2 + y ^ 2 + z ^ 2 = 1 := by
    have : (ca ^ 2 + sa ^ 2) * (cb ^ 2 + sb ^ 2) = 1 := by rw [h5, h6, one_mul]
    rw [← this, hp, hx, hy, hz]; ring
  rw [← hp, ← hx, ← hy, ← hz] at s0 s1
  rw [← hp] at c1
  rw [← hx] at c2
  rw [← hz] at c4
  have hz2 : 0.0005 ≤ z ^ 2 := le_trans (by norm_num) (pow_le_pow_left₀ (by norm_num : (0 : ℝ) ≤ 0.0226) (by linarith) 2)
  have hz3 : z ^ 2 ≤ 0.0006 := (pow_le_pow_left₀ (by linarith) (by linarith : z ≤ 0.0227) 2).trans (by norm_num)
  have hx2 : 0.01 ≤ x ^ 2 := le_trans (by norm_num) (pow_le_pow_left₀ (by norm_num : (0 : ℝ) ≤ 0.12) (by linarith) 2)
  have hp2 : 0.9 ≤ p ^ 2 := le_trans (by norm_num) (pow_le_pow_left₀ (by norm_num : (0 : ℝ) ≤ 0.95) (by linarith) 2)
  have hy2 := sq_nonneg y
  have hov : ∀ a b c d a' b' c' d' : ℝ, overlap (d := 2 ^ 1) (quat a b c d) (quat a' b' c' d') = |a * a' + b * b' + c * c' + d * d'| :=
    fun a b c d a' b' c' d' => quat.overlap_eq a b c d a' b' c' d'
  have f1 : 4 / 100000000 < 1 - overlap (stepOf [0, 1]) (stepOf [1, 0]) := by
    rw [s0, s1, hov]
    have : p * p + x * x + -y * -y + -z * z = 1 - 2 * z ^ 2 := by rw [← hone]; ring
    rw [this, abs_of_pos (by linarith)]
    linarith
  have f2 : 4 / 100000000 < 1 - overlap (stepOf [0, 1] * stepOf [0, 1]) (stepOf [1, 0] * stepOf [1, 0]) := by
    have e1 := quat.mul p x (-y) (-z) p x (-y) (-z)
    have e2 := quat.mul p x (-y) z p x (-y) z
    rw [s0, s1]
    refine lt_of_lt_of_eq ?_ (congrArg₂ (fun a b => 1 - overlap (d := 2) a b) e1.symm e2.symm)
    rw [quat.overlap_eq]
    have : (p * p - x * x - -y * -y - -z * -z) * (p * p - x * x - -y * -y - z * z) +
        (p * x + p * x - (-y * -z - -z * -y)) * (p * x + p * x - (-y * z - z * -y)) +
        (p * -y + p * -y - (-z * x - x * -z)) * (p * -y + p * -y - (z * x - x * z)) +
        (p * -z + p * -z - (x * -y - -y * x)) * (p * z + p * z - (x * -y - -y * x)) = 1 - 8 * (p ^ 2 * z ^ 2) := by
      have h : (p ^ 2 + x ^ 2 + y ^ 2 + z ^ 2) ^ 2 = 1 := by rw [hone, one_pow]
      rw [← h]; ring
    rw [this]
    have hpz : 0.9 * 0.0005 ≤ p ^ 2 * z ^ 2 := mul_le_mul hp2 hz2 (by norm_num) (by positivity)
    have hpz' : p ^ 2 * z ^ 2 ≤ 1 * 0.0006 := mul_le_mul (by linarith) hz3 (by positivity) (by norm_num)
    rw [abs_of_pos (by linarith)]
    linarith
  have f3 : 4 / 100000000 < 1 - overlap (stepOf [0, 1] * stepOf [1, 0]) (stepOf [1, 0] * stepOf [0, 1]) := by
    have e1 := quat.mul p x (-y) (-z) p x (-y) z
    have e2 := quat.mul p x (-y) z p x (-y) (-z)
    rw [s0, s1]
    refine lt_of_lt_of_eq ?_ (congrArg₂ (fun a b => 1 - overlap (d := 2) a b) e1.symm e2.symm)
    rw [quat.overlap_eq]
    have : (p * p - x * x - -y * -y - -z * z) * (p * p - x * x - -y * -y - z * -z) +
        (p * x + p * x - (-y * z - -z * -y)) * (p * x + p * x - (-y * -z - z * -y)) +
        (p * -y + p * -y - (-z * x - x * z)) * (p * -y + p * -y - (z * x - x * -z)) +
        (p * z + p * -z - (x * -y - -y * x)) * (p * -z + p * z - (x * -y - -y * x)) = 1 - 8 * ((x ^ 2 + y ^ 2) * z ^ 2) := by
      have h : (p ^ 2 + x ^ 2 + y ^ 2 + z ^ 2) ^ 2 = 1 := by rw [hone, one_pow]
      rw [← h]; ring
    rw [this]
    have hpz : 0.01 * 0.0005 ≤ (x ^ 2 + y ^ 2) * z ^ 2 := mul_le_mul (by linarith) hz2 (by norm_num) (by positivity)
    have hpz' : (x ^ 2 + y ^ 2) * z ^ 2 ≤ 1 * 0.0006 := mul_le_mul (by linarith) hz3 (by positivity) (by norm_num)
    rw [abs_of_pos (by linarith)]
    linarith
  exact ⟨f1, f2, f3⟩

theorem pairs_far {d : ℕ} {g : Bool → Matrix (Fin d) (Fin d) ℂ} (hg : ∀ b, g b ∈ unitaryGroup (Fin d) ℂ) {δ : ℝ}
    (f1 : δ < 1 - overlap (g false) (g true)) (f2 : δ < 1 - overlap (g false * g false) (g true * g true))
    (f3 : δ < 1 - overlap (g false * g true) (g true * g false)) {a b a' b' : Bool} (h : a ≠ a' ∨ b ≠ b') :
    δ < 1 - overlap (g b * g a) (g b' * g a') := by
  have k1 : ∀ {a a'}, a ≠ a' → δ < 1 - overlap (g a) (g a') := by
    intro a a' h
    cases a <;> cases a' <;> first | exact absurd rfl h | exact f1 | (rw [overlap_comm]; exact f1)
  by_cases hb : b = b'
  · subst hb
    rw [overlap_mul_left (hg b)]
    exact k1 (by simpa using h)
  by_cases ha : a = a'
  · subst ha
    rw [overlap_mul_right (hg a)]
    exact k1 hb
  revert ha hb
  cases a <;> cases a' <;> cases b <;> cases b' <;> intro hb ha <;>
    first | exact absurd rfl hb | exact absurd rfl ha | exact f2 | exact f3 | (rw [overlap_comm]; exact f2) |
      (rw [overlap_comm]; exact f3)

/-- The products of two steps are far apart. -/
theorem two_steps_far : ∀ o₁ o₂ o₁' o₂' : List ℕ, o₁ ∈ [[0, 1], [1, 0]] → o₂ ∈ [[0, 1], [1, 0]] → o₁' ∈ [[0, 1], [1, 0]] →
    o₂' ∈ [[0, 1], [1, 0]] → (o₁ ≠ o₁' ∨ o₂ ≠ o₂') →
    4 / 100000000 < 1 - overlap (stepOf o₂ * stepOf o₁) (stepOf o₂' * stepOf o₁') := by
  obtain ⟨f1, f2, f3⟩ := two_steps
  let ω : Bool → List ℕ := fun b => if b then [1, 0] else [0, 1]
  have m : ∀ o : List ℕ, o ∈ [[0, 1], [1, 0]] → ∃ b, o = ω b := fun o ho => by
    rcases (show o = [0, 1] ∨ o = [1, 0] by simpa using ho) with rfl | rfl
    · exact ⟨false, rfl⟩
    · exact ⟨true, rfl⟩
  intro o₁ o₂ o₁' o₂' m1 m2 m3 m4 hne
  obtain ⟨a, rfl⟩ := m _ m1
  obtain ⟨b, rfl⟩ := m _ m2
  obtain ⟨a', rfl⟩ := m _ m3
  obtain ⟨b', rfl⟩ := m _ m4
  refine pairs_far (g := fun b => stepOf (ω b)) (fun b => stepOf_unitary _) f1 f2 f3 ?_
  rcases hne with h | h
  · exact .inl fun e => h (by rw [e])
  · exact .inr fun e => h (by rw [e])

/-! ## What decides -/

variable {p : Plain} {Cs : List Compiler}

theorem length_mirror {c : Client} (h : Mirror c Cs p) {s l : ℕ} {v : SeqView} (hs : p.seqs[s]? = some v)
    (hl : v.entries.length = l) :
    ∃ c', assertLength 0 s l c = (.ok (), c') ∧ Mirror c' Cs p ∧ c'.world.rng = c.world.rng := by
  obtain ⟨_, c', e, -, -⟩ := assertLength_exact hs hl c h.rel.2
  have hst : (assertLength 0 s l c).2 = (c.step 0 (.getLength s)).2 := by
    obtain ⟨q, c2, e2, -, -⟩ := length_exact hs c h.rel.2
    have e3 : c2 = (c.step 0 (.getLength s)).2 := by
      unfold length perform at e2
      rcases hx : c.step 0 (.getLength s) with ⟨_ | obs, c3⟩
      · rw [hx] at e2; cases e2
      · rw [hx] at e2
        dsimp only at e2
        split at e2 <;> cases e2
        rfl
    unfold assertLength
    rw [PyM.bind_of_ok e2]
    exact e3
  have hp : (p.step (.getLength s)).2 = p := by
    simp only [Plain.step, hs, Plain.with_]
  have hm := Mirror.op (.getLength s) h trivial trivial
  rw [hp] at hm
  rw [e] at hst
  refine ⟨_, e, by rw [show c' = _ from hst]; exact hm, ?_⟩
  rw [show c' = _ from hst]
  rcases forall₂_getElem? h.rel.2.seqs s with ⟨h1, h2⟩ | ⟨r, v', h1, h2, hv⟩
  · rw [hs] at h2; cases h2
  obtain ⟨o, ho, -⟩ := view_eq_some.mp hv
  simp only [Client.step, h1, Client.with_, Client.call]
  have hg : Seq.getLength r c.world = (.ok o.entries.length, c.world) := by
    unfold Seq.getLength
    rw [PyM.bind_of_ok (getSeq_some ho)]
    rfl
  rw [hg]

/-- What a call that returns a sequence leaves. -/
theorem returned_mirror {c : Client} (h : Mirror c Cs p) {T : Task} (hT : T.Uses Cs) (hQ : T.OnQubits) {s : SRef} {w : World}
    {v : SeqView} (hr : T.run 0 c.world = (.ok s, w)) (hv : w.view s = some v) :
    ∃ c', returned 0 T c = (.ok p.seqs.length, c') ∧ Mirror c' Cs { p with seqs := p.seqs ++ [v] } ∧ c'.world.rng = w.rng := by
  rcases returned_cases h hT hQ with ⟨e, w', c', f1, -⟩ | ⟨s', w', v', c', f1, f2, f3, f4⟩
  · rw [hr] at f1; cases f1
  · rw [hr] at f1; cases f1
    rw [hv] at f2; cases f2
    refine ⟨c', f3, f4, ?_⟩
    have ht : c.task 0 T = _ := (Client.call_eq (m := T.run 0)).1 _ _ hr
    have : c' = (c.task 0 T).2 := by
      unfold returned at f3
      rw [ht] at f3 ⊢
      exact ((Prod.mk.inj f3).2).symm
    rw [this, ht]

theorem lift_checks_false {P : Client → Prop} {x : Except PyErr Bool} {b : Prop}
    (hx : x = .ok (open Classical in decide b)) : Checks P (PyM.lift (assertIs false x)) (¬ b) P := by
  intro c hc
  refine ⟨c, hc, fun hb => ?_, fun hb => ?_⟩
  · rw [PyM.lift_apply, hx]
    simp only [assertIs, ok_bind]
    rw [assertE_of ((@decide_eq_false_iff_not _ (Classical.propDecidable _)).mpr hb)]
  · rw [PyM.lift_apply, hx]
    simp only [assertIs, ok_bind]
    unfold assertE
    rw [if_neg fun h => hb ((@decide_eq_false_iff_not _ (Classical.propDecidable _)).mp h)]

/-- The product of the steps with the given orders. -/
noncomputable def stepsOf (orders : List (List ℕ)) : Matrix (Fin (2 ^ 1)) (Fin (2 ^ 1)) ℂ := (orders.map stepOf).reverse.prod

theorem stepsOf_unitary (orders : List (List ℕ)) : stepsOf orders ∈ unitaryGroup (Fin (2 ^ 1)) ℂ :=
  list_prod_mem fun A hA => by
    rw [List.mem_reverse] at hA
    obtain ⟨o, -, rfl⟩ := List.mem_map.mp hA
    exact stepOf_unitary o

/-- The test passes if both products are close to the time evolution, but not to each other. -/
theorem trotterization_iff {H : Hamiltonian} (h1 : xyHamiltonian 2 (-3) = .ok H) (hd : H.dimension = 2)
    (hH : H.Of (xyTerms 2 (-3))) (t : Rng.Tape) : ∃ orders r', reshuffle 20 [0, 1] (Rng.start t) = (.ok orders, r') ∧
      ((trotterization 0 (fresh t)).1 = .ok () ↔
        1 - overlap (evolution (xyTerms 2 (-3)).sum 1.234) (stepOf [0, 1] ^ 20) ≤ 0.05 ∧
        1 - overlap (evolution (xyTerms 2 (-3)).sum 1.234) (stepsOf orders) ≤ 0.05 ∧
        ¬ 1 - overlap (stepOf [0, 1] ^ 20) (stepsOf orders) ≤ 1 / 100000000) := by
  obtain ⟨g1, g2⟩ := hH.total
  obtain ⟨U, e3, hU, hUp, -⟩ := C29_evolution (by positivity) g1 g2 1.234 ""
  have hQ : ∀ b, (Task.trotter H 1.234 20 b).OnQubits := fun b => ⟨1, _, le_rfl, hH⟩
  have m0 : Mirror (fresh t) [] ⟨[], []⟩ := .start _
  have hex : ∀ x ∈ (fresh t).world.entries, x.toVal.Exact := by simp [fresh, Client.start]
  -- the sequence in the given order
  obtain ⟨s, w, es, orders₀, a1, a2, a3, a4, a5, a6⟩ := C47_trotter_gates (c := fresh t) (Cs := []) (.start _) hex le_rfl hH 1.234
    (N := 20) (by norm_num) false
  have hlen₀ : es.length = 20 * 2 := by
    obtain ⟨-, es', -, hv', hl', -⟩ := C47_trotter_shape (c := fresh t) (Cs := []) (.start _) a1
    rw [a2.view] at hv'
    have : es = es' := (SeqView.mk.inj (Option.some.inj hv')).2.2.1
    rw [this, hl', hH.length]; rfl
  have hp₀ : SamePhase (circuit 1 es) (stepOf [0, 1] ^ 20) := by
    have h2 := circuit_trotter a6
    have e : orders₀.map (trotterMatrix (xyTerms 2 (-3)) (1.234 / ((20 : ℤ) : ℝ))) = List.replicate 20 (stepOf [0, 1]) := by
      rw [List.eq_replicate_iff]
      refine ⟨by rw [List.length_map, a3]; rfl, fun A hA => ?_⟩
      obtain ⟨o, ho, rfl⟩ := List.mem_map.mp hA
      rw [(a5 rfl).2 o ho]
      unfold stepOf
      push_cast
      rfl
    rwa [e, List.reverse_replicate, List.prod_replicate] at h2
  obtain ⟨c1, b1, b2, b3⟩ := returned_mirror m0 (T := .trotter H 1.234 20 false) trivial (hQ _) a1 a2.view
  obtain ⟨c2, d1, d2, d3⟩ := length_mirror b2 (s := 0) rfl hlen₀
  -- the sequence in random order
  obtain ⟨s', w', es', orders, k1, k2, k3, k4⟩ := trotter_random_gates d2.rel.2.wf d2.rel.2.exact le_rfl hH 1.234
    (N := 20) (by norm_num)
  have hlen : es'.length = 20 * 2 := by
    obtain ⟨-, es'', -, hv', hl', -⟩ := C47_trotter_shape (c := c2) d2.rel.1 k1
    rw [k2.view] at hv'
    have : es' = es'' := (SeqView.mk.inj (Option.some.inj hv')).2.2.1
    rw [this, hl', hH.length]; rfl
  have hp : SamePhase (circuit 1 es') (stepsOf orders) := by
    have h2 := circuit_trotter k4
    have e : orders.map (trotterMatrix (xyTerms 2 (-3)) (1.234 / ((20 : ℤ) : ℝ))) = orders.map stepOf := by
      refine List.map_congr_left fun o _ => ?_
      unfold stepOf
      push_cast
      rfl
    rwa [e] at h2
  obtain ⟨c3, l1, l2, -⟩ := returned_mirror d2 (T := .trotter H 1.234 20 true) trivial (hQ _) k1 k2.view
  obtain ⟨c4, n1, n2, -⟩ := length_mirror l2 (s := 1) rfl hlen
  refine ⟨orders, w'.rng, ?_, ?_⟩
  · rw [d3, b3, (a5 rfl).1] at k3
    exact k3
  unfold trotterization
  rw [passes_lift h1, passes_lift (show H.getTimeEvolutionOperator 0 1.234 = .ok U from e3), PyM.bind_of_ok b1]
  dsimp only [List.length_nil]
  rw [PyM.bind_of_ok d1, PyM.bind_of_ok l1]
  dsimp only [List.length_append, List.length_cons, List.length_nil, List.nil_append]
  rw [PyM.bind_of_ok n1]
  have q1 := assertCloseTo_checks (p := ⟨[], [⟨2 ^ 1, false, es, none⟩, ⟨2 ^ 1, false, es', none⟩]⟩) (s := 0) (n := 1) rfl rfl hU (some 0.95)
  have q2 := assertCloseTo_checks (p := ⟨[], [⟨2 ^ 1, false, es, none⟩, ⟨2 ^ 1, false, es', none⟩]⟩) (s := 1) (n := 1) rfl rfl hU (some 0.95)
  have q3 := product_exact (p := ⟨[], [⟨2 ^ 1, false, es, none⟩, ⟨2 ^ 1, false, es', none⟩]⟩) (s := 0) (n := 1) rfl rfl
  have q4 := product_exact (p := ⟨[], [⟨2 ^ 1, false, es, none⟩, ⟨2 ^ 1, false, es', none⟩]⟩) (s := 1) (n := 1) rfl rfl
  have key := q1.bind fun _ => q2.bind fun _ => q3.decides fun u hu => q4.decides fun u' hu' =>
    (lift_checks_false (x := u.closeTo 0 u' none) (b := |1 - overlap (circuit 1 es) (circuit 1 es')| ≤ 1 / 100000000) (by
      rw [Unitary.closeTo_none_eq hu.1 hu'.1, hu.2, hu'.2]
      norm_num)).decides
  refine (key c4 n2.rel.2).trans ?_
  have w1 : overlap (U.matrix.toMatrix (2 ^ 1)) (circuit 1 es) = overlap (evolution (xyTerms 2 (-3)).sum 1.234) (stepOf [0, 1] ^ 20) :=
    overlap_congr hUp hp₀
  have w2 : overlap (U.matrix.toMatrix (2 ^ 1)) (circuit 1 es') = overlap (evolution (xyTerms 2 (-3)).sum 1.234) (stepsOf orders) :=
    overlap_congr hUp hp
  have w3 : overlap (circuit 1 es) (circuit 1 es') = overlap (stepOf [0, 1] ^ 20) (stepsOf orders) := overlap_congr hp₀ hp
  have w4 := overlap_le_one (pow_mem (stepOf_unitary [0, 1]) 20) (stepsOf_unitary orders)
  dsimp only
  rw [w1, w2, w3, abs_of_nonneg (by linarith)]
  simp only [Metropolis.GoodEnough]
  norm_num

end Tests

end Stoq
