import Verif.Model.PaperFits
import Verif.Proofs.PaperBins
import Mathlib.Analysis.Convex.SpecificFunctions.Basic
import Mathlib.Analysis.Convex.Jensen
import Mathlib.Analysis.SpecialFunctions.Pow.Deriv
import Mathlib.Analysis.Calculus.LocalExtr.Basic

/-! # Lemmas on the fits -/

namespace Stoq

namespace Paper

theorem sumSq_nonneg (f : ℝ → ℝ → ℝ) (points : List (ℝ × ℝ)) (a : ℝ) : 0 ≤ sumSq f points a :=
  List.sum_nonneg fun y hy => by
    obtain ⟨p, -, rfl⟩ := List.mem_map.mp hy
    positivity

theorem sumSq_eq_zero {f : ℝ → ℝ → ℝ} {points : List (ℝ × ℝ)} {a : ℝ} : sumSq f points a = 0 ↔ ∀ p ∈ points, f p.1 a = p.2 := by
  unfold sumSq
  induction points with
  | nil => simp
  | cons p l ih =>
    have h1 : 0 ≤ (f p.1 a - p.2) ^ 2 := by positivity
    have h2 := sumSq_nonneg f l a
    unfold sumSq at h2
    rw [List.map_cons, List.sum_cons, add_eq_zero_iff_of_nonneg h1 h2, ih, sq_eq_zero_iff, sub_eq_zero]
    simp

/-- With points on the curve, the fits are the parameters whose curve also contains them. -/
theorem isFit_exact {f : ℝ → ℝ → ℝ} {S : Set ℝ} {points : List (ℝ × ℝ)} {a : ℝ} (ha : a ∈ S) (h : ∀ p ∈ points, p.2 = f p.1 a) {b : ℝ} :
    IsFit f S points b ↔ b ∈ S ∧ ∀ p ∈ points, f p.1 b = f p.1 a := by
  have h0 : sumSq f points a = 0 := sumSq_eq_zero.mpr fun p hp => (h p hp).symm
  constructor
  · rintro ⟨hb, hmin⟩
    have := hmin a ha
    rw [h0] at this
    refine ⟨hb, fun p hp => ?_⟩
    rw [sumSq_eq_zero.mp (le_antisymm this (sumSq_nonneg _ _ _)) p hp, h p hp]
  · rintro ⟨hb, he⟩
    refine ⟨hb, fun c _ => ?_⟩
    rw [sumSq_eq_zero.mpr fun p hp => (he p hp).trans (h p hp).symm]
    exact sumSq_nonneg _ _ _

theorem sumSq_lt {f : ℝ → ℝ → ℝ} {points : List (ℝ × ℝ)} {a b : ℝ} (h : ∀ p ∈ points, f p.1 b ≤ f p.1 a ∧ f p.1 a ≤ p.2)
    (hs : ∃ p ∈ points, f p.1 b < f p.1 a) : sumSq f points a < sumSq f points b := by
  unfold sumSq
  refine List.sum_lt_sum _ _ (fun p hp => ?_) ?_
  · obtain ⟨h1, h2⟩ := h p hp
    nlinarith
  · obtain ⟨p, hp, hlt⟩ := hs
    refine ⟨p, hp, ?_⟩
    obtain ⟨h1, h2⟩ := h p hp
    nlinarith

theorem exponential_mono {x a b : ℝ} (hx : 0 ≤ x) (hb : 0 ≤ b) (h : b ≤ a) : exponentialFunc x b ≤ exponentialFunc x a :=
  Real.rpow_le_rpow hb h hx

theorem exponential_strict {x a b : ℝ} (hx : 0 < x) (hb : 0 ≤ b) (h : b < a) : exponentialFunc x b < exponentialFunc x a :=
  Real.rpow_lt_rpow hb h hx

theorem exponential_inj {x a b : ℝ} (hx : 0 < x) (ha : 0 ≤ a) (hb : 0 ≤ b) : exponentialFunc x b = exponentialFunc x a ↔ b = a :=
  Real.rpow_left_inj hb ha hx.ne'

theorem gaussian_eq (x a : ℝ) : gaussianFunc x a = exponentialFunc (x ^ 2) a := rfl

/-- Points at or above a curve, and one of them above it where the curve rises with its parameter: no fit has a parameter up to
that of the curve. -/
theorem fit_above {points : List (ℝ × ℝ)} {a b : ℝ} (ha : 0 < a) (hx : ∀ p ∈ points, 0 ≤ p.1)
    (h : ∀ p ∈ points, exponentialFunc p.1 a ≤ p.2) (hpos : ∃ p ∈ points, 0 < p.1)
    (hfit : IsFit exponentialFunc (Set.Ici 0) points b) :
    a ≤ b ∧ ((∃ p ∈ points, 0 < p.1 ∧ exponentialFunc p.1 a < p.2) → a < b) := by
  have hb : 0 ≤ b := hfit.1
  have hle : a ≤ b := by
    by_contra hlt
    push Not at hlt
    obtain ⟨p, hp, hp0⟩ := hpos
    exact absurd (hfit.2 a ha.le) (not_le.mpr (sumSq_lt (fun q hq => ⟨exponential_mono (hx q hq) hb hlt.le, h q hq⟩)
      ⟨p, hp, exponential_strict hp0 hb hlt⟩))
  refine ⟨hle, ?_⟩
  rintro ⟨p, hp, hp0, hlt⟩
  refine lt_of_le_of_ne hle ?_
  rintro rfl
  have hmin : IsLocalMin (sumSq exponentialFunc points) a := by
    filter_upwards [lt_mem_nhds ha] with c hc
    exact hfit.2 c hc.le
  have hderiv : ∀ l : List (ℝ × ℝ), HasDerivAt (sumSq exponentialFunc l)
      ((l.map fun q => 2 * (exponentialFunc q.1 a - q.2) * (q.1 * a ^ (q.1 - 1))).sum) a := by
    intro l
    induction l with
    | nil => exact hasDerivAt_const a 0
    | cons q l ih =>
      have h1 : HasDerivAt (fun c => (exponentialFunc q.1 c - q.2) ^ 2)
          (2 * (exponentialFunc q.1 a - q.2) * (q.1 * a ^ (q.1 - 1))) a := by
        have h2 : HasDerivAt (fun c => exponentialFunc q.1 c - q.2) (q.1 * a ^ (q.1 - 1)) a :=
          (Real.hasDerivAt_rpow_const (Or.inl ha.ne')).sub_const _
        simpa using h2.fun_pow 2
      rw [List.map_cons, List.sum_cons]
      exact (h1.add ih).congr_of_eventuallyEq (Filter.Eventually.of_forall fun c => by simp [sumSq])
  have hzero := hmin.hasDerivAt_eq_zero (hderiv points)
  have hterm : ∀ q ∈ points, 2 * (exponentialFunc q.1 a - q.2) * (q.1 * a ^ (q.1 - 1)) ≤ 0 := fun q hq => by
    have h1 := h q hq
    have h2 := mul_nonneg (hx q hq) (Real.rpow_nonneg ha.le (q.1 - 1))
    nlinarith
  have : (points.map fun q => 2 * (exponentialFunc q.1 a - q.2) * (q.1 * a ^ (q.1 - 1))).sum < (points.map fun _ => (0 : ℝ)).sum := by
    refine List.sum_lt_sum _ _ hterm ⟨p, hp, ?_⟩
    have h2 := mul_pos hp0 (Real.rpow_pos_of_pos ha (p.1 - 1))
    nlinarith
  rw [hzero] at this
  simp at this

/-- Jensen's inequality for lists. -/
theorem mean_exponential {a : ℝ} (ha : 0 < a) {l : List ℝ} (hl : l ≠ []) :
    exponentialFunc (mean l) a ≤ mean (l.map fun x => exponentialFunc x a) ∧
      (a ≠ 1 → (∃ x ∈ l, ∃ y ∈ l, x ≠ y) → exponentialFunc (mean l) a < mean (l.map fun x => exponentialFunc x a)) := by
  have hn : (l.length : ℝ) ≠ 0 := by exact_mod_cast (List.length_pos_of_ne_nil hl).ne'
  have hm : ∀ g : ℝ → ℝ, mean (l.map g) = ∑ i : Fin l.length, (1 / (l.length : ℝ)) • g (l.get i) := by
    intro g
    unfold mean
    rw [List.length_map, ← Finset.smul_sum, smul_eq_mul, one_div, inv_mul_eq_div]
    congr 1
    conv_lhs => rw [← List.ofFn_get (l := l), List.map_ofFn, List.sum_ofFn]
    rfl
  have hm0 : mean l = ∑ i : Fin l.length, (1 / (l.length : ℝ)) • l.get i := by
    conv_lhs => rw [← List.map_id l]
    exact hm id
  have hw1 : ∑ _i : Fin l.length, (1 / (l.length : ℝ)) = 1 := by
    rw [Finset.sum_const, Finset.card_univ, Fintype.card_fin, nsmul_eq_mul, mul_one_div_cancel hn]
  have he : ∀ x, exponentialFunc x a = Real.exp (Real.log a * x) := fun x => Real.rpow_def_of_pos ha x
  have hlin : Real.log a * mean l = ∑ i : Fin l.length, (1 / (l.length : ℝ)) • (Real.log a * l.get i) := by
    rw [hm0, Finset.mul_sum]
    refine Finset.sum_congr rfl fun i _ => ?_
    rw [smul_eq_mul, smul_eq_mul]
    ring
  constructor
  · rw [hm, he, hlin]
    simp only [he]
    exact convexOn_exp.map_sum_le (fun i _ => by positivity) hw1 fun i _ => Set.mem_univ _
  · rintro ha1 ⟨x, hx, y, hy, hxy⟩
    obtain ⟨i, rfl⟩ := List.get_of_mem hx
    obtain ⟨j, rfl⟩ := List.get_of_mem hy
    rw [hm, he, hlin]
    simp only [he]
    refine strictConvexOn_exp.map_sum_lt (fun i _ => by
      have : 0 < (l.length : ℝ) := by exact_mod_cast List.length_pos_of_ne_nil hl
      positivity) hw1 (fun i _ => Set.mem_univ _) ?_
    refine ⟨i, Finset.mem_univ _, j, Finset.mem_univ _, fun h => hxy ?_⟩
    exact mul_left_cancel₀ (Real.log_ne_zero_of_pos_of_ne_one ha ha1) h

end Paper

end Stoq
