import Verif.Proofs.PaperFits
import Verif.Props.PaperBins

/-!
# C102: what the fits of the notebooks find
-/

namespace Stoq

open Paper

/-- C102: if every point is on the curve of `a` and some circuit has a layer, the least squares fit is `a`, for the exponential
and for the Gaussian curve. -/
theorem C102_exact {points : List (ℝ × ℝ)} {a : ℝ} (ha : 0 ≤ a) (hpos : ∃ p ∈ points, 0 < p.1) :
    ((∀ p ∈ points, p.2 = exponentialFunc p.1 a) → ∀ b, IsFit exponentialFunc (Set.Ici 0) points b ↔ b = a) ∧
    ((∀ p ∈ points, p.2 = gaussianFunc p.1 a) → ∀ b, IsFit gaussianFunc (Set.Ici 0) points b ↔ b = a) := by
  obtain ⟨p, hp, hp0⟩ := hpos
  constructor
  · intro h b
    rw [isFit_exact (show a ∈ Set.Ici (0 : ℝ) from ha) h]
    constructor
    · rintro ⟨hb, he⟩
      exact (exponential_inj hp0 ha hb).mp (he p hp)
    · rintro rfl
      exact ⟨ha, fun _ _ => rfl⟩
  · intro h b
    rw [isFit_exact (show a ∈ Set.Ici (0 : ℝ) from ha) h]
    constructor
    · rintro ⟨hb, he⟩
      have := he p hp
      rw [gaussian_eq, gaussian_eq] at this
      exact (exponential_inj (by positivity) ha hb).mp this
    · rintro rfl
      exact ⟨ha, fun _ _ => rfl⟩

/-- C102: the errors per layer: an exponential fit of `(1 - e) ^ x` gives `e`, and a Gaussian fit of `(1 - e ^ 2) ^ (x ^ 2)` gives
`e`. -/
theorem C102_errors {points : List (ℝ × ℝ)} {e : ℝ} (h0 : 0 ≤ e) (h1 : e ≤ 1)
    (hpos : ∃ p ∈ points, 0 < p.1) :
    ((∀ p ∈ points, p.2 = (1 - e) ^ p.1) → ∀ b, IsFit exponentialFunc (Set.Ici 0) points b → errorExponential b = e) ∧
    ((∀ p ∈ points, p.2 = (1 - e ^ 2) ^ (p.1 ^ 2)) → ∀ b, IsFit gaussianFunc (Set.Ici 0) points b → errorGaussian b = e) := by
  constructor
  · intro h b hb
    rw [((C102_exact (a := 1 - e) (by linarith) hpos).1 h b).mp hb]
    unfold errorExponential
    ring
  · intro h b hb
    rw [((C102_exact (a := 1 - e ^ 2) (by nlinarith) hpos).2 h b).mp hb]
    unfold errorGaussian
    rw [sub_sub_cancel, Real.sqrt_sq h0]

theorem Paper.fit_exists {points : List (ℝ × ℝ)} (hx : ∀ p ∈ points, 0 ≤ p.1) (hpos : ∃ p ∈ points, 0 < p.1) :
    ∃ b, IsFit exponentialFunc (Set.Ici 0) points b := by
  obtain ⟨p, hp, hp0⟩ := hpos
  set K : ℝ := |p.2| + √(sumSq exponentialFunc points 0) with hK
  have hK0 : 0 ≤ K := by positivity
  have hcont : ContinuousOn (sumSq exponentialFunc points) (Set.Icc 0 (K ^ p.1⁻¹)) := by
    have : ∀ l : List (ℝ × ℝ), (∀ q ∈ l, 0 ≤ q.1) → Continuous (sumSq exponentialFunc l) := by
      intro l hl
      induction l with
      | nil => exact continuous_const
      | cons q l ih =>
        have h1 : Continuous fun c => (exponentialFunc q.1 c - q.2) ^ 2 := by
          have : Continuous fun c : ℝ => exponentialFunc q.1 c := Real.continuous_rpow_const (hl q (by simp))
          fun_prop
        have h2 := ih fun q hq => hl q (List.mem_cons_of_mem _ hq)
        have : sumSq exponentialFunc (q :: l) = fun c => (exponentialFunc q.1 c - q.2) ^ 2 + sumSq exponentialFunc l c := by
          funext c
          simp [sumSq]
        rw [this]
        exact h1.add h2
    exact (this points hx).continuousOn
  obtain ⟨b, hb, hmin⟩ := isCompact_Icc.exists_isMinOn ⟨0, by simp [Real.rpow_nonneg hK0]⟩ hcont
  refine ⟨b, hb.1, fun c hc => ?_⟩
  by_cases hcM : c ≤ K ^ p.1⁻¹
  · exact hmin ⟨hc, hcM⟩
  · push Not at hcM
    have h0 := hmin (show (0 : ℝ) ∈ Set.Icc 0 (K ^ p.1⁻¹) by simp [Real.rpow_nonneg hK0])
    refine le_trans h0 ?_
    have h1 : K ≤ exponentialFunc p.1 c := by
      have := exponential_mono hp0.le (Real.rpow_nonneg hK0 _) hcM.le
      unfold exponentialFunc at this
      rwa [Real.rpow_inv_rpow hK0 hp0.ne'] at this
    have h2 : √(sumSq exponentialFunc points 0) ≤ exponentialFunc p.1 c - p.2 := by
      have := le_abs_self p.2
      linarith
    have h3 : sumSq exponentialFunc points 0 ≤ (exponentialFunc p.1 c - p.2) ^ 2 := by
      have := pow_le_pow_left₀ (Real.sqrt_nonneg _) h2 2
      rwa [Real.sq_sqrt (sumSq_nonneg _ _ _)] at this
    refine h3.trans ?_
    unfold sumSq
    exact List.single_le_sum (fun y hy => by
      obtain ⟨q, -, rfl⟩ := List.mem_map.mp hy
      positivity) _ (List.mem_map.mpr ⟨p, hp, rfl⟩)

/-- C102: whatever was measured, a least squares fit exists as soon as some circuit has a layer. -/
theorem C102_exists {points : List (ℝ × ℝ)} (hx : ∀ p ∈ points, 0 ≤ p.1) (hpos : ∃ p ∈ points, 0 < p.1) :
    (∃ b, IsFit exponentialFunc (Set.Ici 0) points b) ∧ ∃ b, IsFit gaussianFunc (Set.Ici 0) points b := by
  refine ⟨fit_exists hx hpos, ?_⟩
  obtain ⟨p, hp, hp0⟩ := hpos
  obtain ⟨b, hb, hmin⟩ := fit_exists (points := points.map fun p => (p.1 ^ 2, p.2)) (fun q hq => by
    obtain ⟨p, -, rfl⟩ := List.mem_map.mp hq
    positivity) ⟨_, List.mem_map.mpr ⟨p, hp, rfl⟩, by positivity⟩
  have e : ∀ c, sumSq exponentialFunc (points.map fun p => (p.1 ^ 2, p.2)) c = sumSq gaussianFunc points c := fun c => by
    unfold sumSq
    rw [List.map_map]
    rfl
  exact ⟨b, hb, fun c hc => by rw [← e, ← e]; exact hmin c hc⟩

/-- C102: fitting the bins instead of the points is biased: if every point is on the curve of `a`, the exponential fit of the bins
is at least `a`, and more than `a` if some bin has circuits of different layer counts (and `a` is not 1), so that the error per
layer is underestimated. -/
theorem C102_bins {b : ℕ} (hb : 0 < b) {points : List (ℝ × ℝ)} {a : ℝ} (ha : 0 < a) (hx : ∀ p ∈ points, 0 ≤ p.1)
    (h : ∀ p ∈ points, p.2 = exponentialFunc p.1 a) (hpos : ∃ x ∈ xBin b points, 0 < x) {c : ℝ}
    (hfit : IsFit exponentialFunc (Set.Ici 0) ((xBin b points).zip (yBin b points)) c) :
    errorExponential c ≤ errorExponential a ∧
      (a ≠ 1 → (∃ l ∈ bins b points, ∃ p ∈ l, ∃ q ∈ l, p.1 ≠ q.1) → errorExponential c < errorExponential a) := by
  obtain ⟨-, hlen, rest, hrest, -⟩ := C100_bins hb points
  have hmem : ∀ l ∈ bins b points, ∀ p ∈ l, p ∈ points := fun l hl p hp => by
    rw [hrest]
    exact List.mem_append_left _ (List.mem_flatten.mpr ⟨l, hl, hp⟩)
  have hne : ∀ l ∈ bins b points, l.map Prod.fst ≠ [] := fun l hl h0 => by
    have := hlen l hl
    rw [List.map_eq_nil_iff] at h0
    rw [h0] at this
    simp at this
    omega
  have hz : (xBin b points).zip (yBin b points) = (bins b points).map fun l => (mean (l.map Prod.fst), mean (l.map Prod.snd)) :=
    List.zip_map'
  have hy : ∀ l ∈ bins b points, l.map Prod.snd = (l.map Prod.fst).map fun x => exponentialFunc x a := fun l hl => by
    rw [List.map_map]
    exact List.map_congr_left fun p hp => h p (hmem l hl p hp)
  have hm0 : ∀ l ∈ bins b points, 0 ≤ mean (l.map Prod.fst) := fun l hl => by
    unfold mean
    refine div_nonneg (List.sum_nonneg fun x hx' => ?_) (Nat.cast_nonneg _)
    obtain ⟨p, hp, rfl⟩ := List.mem_map.mp hx'
    exact hx p (hmem l hl p hp)
  rw [hz] at hfit
  have key := fit_above ha (fun q hq => by
      obtain ⟨l, hl, rfl⟩ := List.mem_map.mp hq
      exact hm0 l hl) (fun q hq => by
      obtain ⟨l, hl, rfl⟩ := List.mem_map.mp hq
      dsimp only
      rw [hy l hl]
      exact (mean_exponential ha (hne l hl)).1) (by
      obtain ⟨x, hx', hx0⟩ := hpos
      obtain ⟨l, hl, rfl⟩ := List.mem_map.mp hx'
      exact ⟨_, List.mem_map.mpr ⟨l, hl, rfl⟩, hx0⟩) hfit
  unfold errorExponential
  refine ⟨by linarith [key.1], fun ha1 => ?_⟩
  rintro ⟨l, hl, p, hp, q, hq, hpq⟩
  have := key.2 ⟨_, List.mem_map.mpr ⟨l, hl, rfl⟩, ?_, ?_⟩
  · linarith
  · dsimp only
    unfold mean
    refine div_pos ?_ (by exact_mod_cast List.length_pos_of_ne_nil (hne l hl))
    by_contra hle
    have hnn : ∀ x ∈ l.map Prod.fst, 0 ≤ x := fun x hx' => by
      obtain ⟨p, hp, rfl⟩ := List.mem_map.mp hx'
      exact hx p (hmem l hl p hp)
    have hz : ∀ r ∈ l, r.1 = 0 := fun r hr => by
      have := List.single_le_sum hnn r.1 (List.mem_map.mpr ⟨r, hr, rfl⟩)
      have := hnn r.1 (List.mem_map.mpr ⟨r, hr, rfl⟩)
      linarith
    exact hpq ((hz p hp).trans (hz q hq).symm)
  · dsimp only
    rw [hy l hl]
    exact (mean_exponential ha (hne l hl)).2 ha1
      ⟨p.1, List.mem_map.mpr ⟨p, hp, rfl⟩, q.1, List.mem_map.mpr ⟨q, hq, rfl⟩, hpq⟩

/-- C102: with at least two bins and no error bar of 0 the reduced chi-square is not negative, and 0 exactly if every bin is on the
curve; if every bin is off the curve by `t` error bars, it is `t ^ 2` times the number of bins over that number less 1. -/
theorem C102_chi {f : ℝ → ℝ → ℝ} {bs : List (ℝ × ℝ × ℝ)} (hl : 2 ≤ bs.length) (h : ∀ b ∈ bs, b.2.2 ≠ 0) (a : ℝ) :
    0 ≤ reducedChiSquare f bs a ∧ (reducedChiSquare f bs a = 0 ↔ ∀ b ∈ bs, b.2.1 = f b.1 a) ∧
      ∀ t, (∀ b ∈ bs, |b.2.1 - f b.1 a| = t * |b.2.2|) → reducedChiSquare f bs a = t ^ 2 * bs.length / (bs.length - 1) := by
  have hd : (0 : ℝ) < bs.length - 1 := by
    have : (2 : ℝ) ≤ bs.length := by exact_mod_cast hl
    linarith
  have hnn : ∀ l : List (ℝ × ℝ × ℝ), 0 ≤ (l.map fun b => (b.2.1 - f b.1 a) ^ 2 / b.2.2 ^ 2).sum := fun l =>
    List.sum_nonneg fun y hy => by
      obtain ⟨p, -, rfl⟩ := List.mem_map.mp hy
      positivity
  have hz : ∀ l : List (ℝ × ℝ × ℝ), (∀ b ∈ l, b.2.2 ≠ 0) →
      ((l.map fun b => (b.2.1 - f b.1 a) ^ 2 / b.2.2 ^ 2).sum = 0 ↔ ∀ b ∈ l, b.2.1 = f b.1 a) := by
    intro l hl
    induction l with
    | nil => simp
    | cons b l ih =>
      have h1 : 0 ≤ (b.2.1 - f b.1 a) ^ 2 / b.2.2 ^ 2 := by positivity
      have h2 := hl b (by simp)
      rw [List.map_cons, List.sum_cons, add_eq_zero_iff_of_nonneg h1 (hnn l), ih fun c hc => hl c (List.mem_cons_of_mem _ hc),
        div_eq_zero_iff, or_iff_left (pow_ne_zero 2 h2), sq_eq_zero_iff, sub_eq_zero]
      simp
  unfold reducedChiSquare
  refine ⟨div_nonneg (hnn bs) hd.le, ?_, fun t ht => ?_⟩
  · dsimp only
    rw [div_eq_zero_iff, or_iff_left hd.ne', hz bs h]
  · dsimp only
    rw [List.map_congr_left (g := fun _ => t ^ 2) fun b hb => ?_]
    · rw [List.map_const', List.sum_replicate, nsmul_eq_mul, mul_comm]
    · rw [div_eq_iff (pow_ne_zero 2 (h b hb)), ← sq_abs, ht b hb, mul_pow, sq_abs]

/-- C102: the curve of figure 12: it starts at 0, rises with the depth and stays below the cost of a random unitary, and points on
it determine it. -/
theorem C102_depth {c : ℝ} (hc : 0 < c) :
    (∀ b, funcExponential c 0 b = 0) ∧ (∀ b, 0 < b → StrictMono fun x => funcExponential c x b) ∧
    (∀ b x, funcExponential c x b < c) ∧
    ∀ {points : List (ℝ × ℝ)} {b : ℝ}, (∀ p ∈ points, p.2 = funcExponential c p.1 b) → (∃ p ∈ points, p.1 ≠ 0) →
      ∀ b', IsFit (funcExponential c) Set.univ points b' ↔ b' = b := by
  refine ⟨fun b => by simp [funcExponential], fun b hb x y hxy => ?_, fun b x => ?_, fun {points b} h hp b' => ?_⟩
  · unfold funcExponential
    have : Real.exp (-b * y) < Real.exp (-b * x) := Real.exp_lt_exp.mpr (by nlinarith)
    dsimp only
    nlinarith
  · unfold funcExponential
    have := Real.exp_pos (-b * x)
    nlinarith
  · rw [isFit_exact (Set.mem_univ b) h]
    constructor
    · rintro ⟨-, he⟩
      obtain ⟨p, hp, hp0⟩ := hp
      have := mul_left_cancel₀ hc.ne' (he p hp)
      have := Real.exp_injective (sub_right_inj.mp this)
      have := mul_right_cancel₀ hp0 this
      linarith
    · rintro rfl
      exact ⟨Set.mem_univ _, fun _ _ => rfl⟩

/-! ## Examples -/

/-- C102: two circuits of one and three layers with an error of one half: the fit of the points finds it, the fit of the bin
of both underestimates it. -/
example : (∀ b, IsFit exponentialFunc (Set.Ici 0) [(1, 1 / 2), (3, 1 / 8)] b ↔ b = 1 / 2) ∧
    ∀ c, IsFit exponentialFunc (Set.Ici 0)
      ((xBin 2 [(1, (1 / 2 : ℝ)), (3, 1 / 8)]).zip (yBin 2 [(1, (1 / 2 : ℝ)), (3, 1 / 8)])) c → errorExponential c < 1 / 2 := by
  have hp : ∀ p ∈ [((1 : ℝ), (1 / 2 : ℝ)), (3, 1 / 8)], 0 ≤ p.1 ∧ p.2 = exponentialFunc p.1 (1 / 2) := by
    intro p hp
    simp only [List.mem_cons, List.not_mem_nil, or_false] at hp
    rcases hp with rfl | rfl
    · norm_num [exponentialFunc]
    · refine ⟨by norm_num, ?_⟩
      unfold exponentialFunc
      rw [show (3 : ℝ) = (3 : ℕ) by norm_num, Real.rpow_natCast]
      norm_num
  have hbins : bins 2 [((1 : ℝ), (1 / 2 : ℝ)), (3, 1 / 8)] = [[(1, 1 / 2), (3, 1 / 8)]] := rfl
  refine ⟨(C102_exact (by norm_num) ⟨_, List.mem_cons_self, by norm_num⟩).1 fun p h => (hp p h).2, fun c hc => ?_⟩
  have := (C102_bins (by norm_num) (by norm_num) (fun p h => (hp p h).1) (fun p h => (hp p h).2)
    ⟨2, by rw [xBin, hbins]; norm_num [mean], by norm_num⟩ hc).2 (by norm_num)
    ⟨_, by rw [hbins]; exact List.mem_cons_self, (1, 1 / 2), by simp, (3, 1 / 8), by simp, by norm_num⟩
  norm_num [errorExponential] at this ⊢
  linarith

/-- C102: a fit exists for points that are on no curve. -/
example : ∃ b, IsFit gaussianFunc (Set.Ici 0) [(0, 2), (1, -1), (2, 3)] b :=
  (C102_exists (fun p hp => by
    simp only [List.mem_cons, List.not_mem_nil, or_false] at hp
    rcases hp with rfl | rfl | rfl <;> norm_num) ⟨(1, -1), by simp, by norm_num⟩).2

/-- C102: a Gaussian fit of a circuit of one layer with the rate 3/4 has the error 1/2. -/
example {b : ℝ} (h : IsFit gaussianFunc (Set.Ici 0) [(1, 3 / 4)] b) : errorGaussian b = 1 / 2 :=
  (C102_errors (by norm_num) (by norm_num) ⟨(1, 3 / 4), by simp, by norm_num⟩).2 (fun p hp => by
    rw [List.mem_singleton] at hp
    subst hp
    norm_num) b h

/-- C102: two bins, one of them off the curve. -/
example : reducedChiSquare exponentialFunc [(0, 1, 1), (1, 1, 1 / 2)] (1 / 2) = 1 := by
  norm_num [reducedChiSquare, exponentialFunc]

example : ¬ reducedChiSquare exponentialFunc [(0, 1, 1), (1, 1, 1 / 2)] (1 / 2) = 0 := by
  rw [(C102_chi (by norm_num) (fun b hb => by
    simp only [List.mem_cons, List.not_mem_nil, or_false] at hb
    rcases hb with rfl | rfl <;> norm_num) _).2.1]
  intro h
  have := h (1, 1, 1 / 2) (by simp)
  norm_num [exponentialFunc] at this

/-- C102: the depth curve that passes through one point. -/
example (b' : ℝ) : IsFit (funcExponential (4 / 5)) Set.univ [(10, funcExponential (4 / 5) 10 (1 / 8))] b' ↔ b' = 1 / 8 :=
  (C102_depth (by norm_num)).2.2.2 (fun p hp => by
    rw [List.mem_singleton] at hp
    subst hp
    rfl) ⟨_, List.mem_cons_self, by norm_num⟩ b'

end Stoq
