import Verif.Model.PaperPrecision
import Verif.Props.PaperFiles
import Verif.Props.PaperFits

/-!
# C104: the precision of the fits in figures 8(c), 8(d), 9(c) and 9(d)
-/

namespace Stoq

open Paper

/-- C104: the spread of fitted fidelities is the spread of the losses, and one minus their mean is the mean of the losses; the
spread of equal numbers is 0, and of others positive; multiplied by a number it is multiplied by its absolute value. -/
theorem C104_std {l : List ℝ} (h : l ≠ []) :
    std (l.map fun a => 1 - a) = std l ∧ mean (l.map fun a => 1 - a) = lossEstimate l ∧ 0 ≤ std l ∧
    (std l = 0 ↔ ∀ x ∈ l, ∀ y ∈ l, x = y) ∧ (∀ c, std (l.map (c * ·)) = |c| * std l) ∧
    ∀ a, l = [a] → std l = 0 := by
  have hl : (l.length : ℝ) ≠ 0 := by
    simpa using h
  have hmean : mean (l.map fun a => 1 - a) = 1 - mean l := by
    have : ∀ l : List ℝ, (l.map fun a => 1 - a).sum = l.length - l.sum := fun l => by
      induction l with
      | nil => simp
      | cons a l ih =>
        rw [List.map_cons, List.sum_cons, ih, List.length_cons, List.sum_cons]
        push_cast
        ring
    unfold mean
    rw [this, List.length_map, sub_div, div_self hl]
  have hmul : ∀ (c : ℝ) (l : List ℝ), mean (l.map (c * ·)) = c * mean l := fun c l => by
    unfold mean
    rw [List.sum_map_mul_left, List.length_map, mul_div_assoc, List.map_id']
  refine ⟨?_, hmean, Real.sqrt_nonneg _, ?_, fun c => ?_, ?_⟩
  · unfold std
    rw [hmean, List.map_map]
    refine congrArg (fun l => √(mean l)) (List.map_congr_left fun a _ => ?_)
    dsimp only [Function.comp]
    ring
  · rw [(std_facts h).2]
    constructor
    · intro hx x h1 y h2
      rw [hx x h1, hx y h2]
    · intro hx x h1
      have : l = List.replicate l.length x := List.eq_replicate_iff.mpr ⟨rfl, fun y hy => hx y hy x h1⟩
      rw [this, mean, List.sum_replicate, List.length_replicate, nsmul_eq_mul, mul_div_cancel_left₀ _ hl]
  · unfold std
    rw [hmul c l, List.map_map, ← Real.sqrt_sq_eq_abs, ← Real.sqrt_mul (sq_nonneg c), ← hmul (c ^ 2), List.map_map]
    refine congrArg (fun l => √(mean l)) (List.map_congr_left fun a _ => ?_)
    dsimp only [Function.comp]
    ring
  · rintro a rfl
    exact ((std_facts h).2).mpr fun x hx => by
      rw [List.mem_singleton.mp hx]
      simp [mean]

/-- C104: if in each run `r` a circuit of `L n` layers keeps the fraction `(1 - ε r) ^ L n`, the fits of the runs are exactly the numbers
`1 - ε r`; with `(1 - ε r ^ 2) ^ (L n) ^ 2` the error rates of the Gaussian fits are the numbers `ε r`. -/
theorem C104_fits {ρ ι : Type} (runs : List ρ) {ε : ρ → ℝ} (hε : ∀ r, 0 ≤ ε r ∧ ε r ≤ 1) {ns : List ι} {L : ι → ℕ}
    (hL : ∃ n ∈ ns, 0 < L n) (alphas : List ℝ) :
    (RunFits exponentialFunc (ns.map L) (runs.map fun r => ns.map fun n => (1 - ε r) ^ L n) alphas ↔
      alphas = runs.map fun r => 1 - ε r) ∧
    (RunFits gaussianFunc (ns.map L) (runs.map fun r => ns.map fun n => (1 - ε r ^ 2) ^ (L n) ^ 2) alphas →
      errorRates alphas = runs.map ε) := by
  have hzip : ∀ g : ι → ℝ, ((ns.map L).map fun x : ℕ => (x : ℝ)).zip (ns.map g) = ns.map fun n => ((L n : ℝ), g n) := fun g => by
    rw [List.map_map, List.zip_map']
    rfl
  have hpos : ∀ g : ι → ℝ, ∃ p ∈ ns.map fun n => ((L n : ℝ), g n), 0 < p.1 := fun g => by
    obtain ⟨n, hn, h0⟩ := hL
    exact ⟨_, List.mem_map.mpr ⟨n, hn, rfl⟩, Nat.cast_pos.mpr h0⟩
  have h1 : ∀ r a, IsFit exponentialFunc (Set.Ici 0) (((ns.map L).map fun x : ℕ => (x : ℝ)).zip (ns.map fun n => (1 - ε r) ^ L n)) a ↔
      a = 1 - ε r := fun r a => by
    rw [hzip]
    refine (C102_exact (by linarith [(hε r).2]) (hpos _)).1 (fun p hp => ?_) a
    obtain ⟨n, -, rfl⟩ := List.mem_map.mp hp
    exact (Real.rpow_natCast _ _).symm
  have h2 : ∀ r a, IsFit gaussianFunc (Set.Ici 0) (((ns.map L).map fun x : ℕ => (x : ℝ)).zip (ns.map fun n => (1 - ε r ^ 2) ^ (L n) ^ 2)) a →
      errorGaussian a = ε r := fun r a ha => by
    rw [hzip] at ha
    have h01 : 0 ≤ 1 - ε r ^ 2 := by nlinarith [(hε r).1, (hε r).2]
    rw [((C102_exact h01 (hpos _)).2 (fun p hp => ?_) a).mp ha, errorGaussian, sub_sub_cancel, Real.sqrt_sq (hε r).1]
    obtain ⟨n, -, rfl⟩ := List.mem_map.mp hp
    dsimp only [gaussianFunc]
    rw [← Real.rpow_natCast]
    push_cast
    rfl
  unfold RunFits
  constructor
  · rw [List.forall₂_map_left_iff]
    constructor
    · intro h
      induction h with
      | nil => rfl
      | cons hr _ ih => rw [List.map_cons, ← ih, (h1 _ _).mp hr]
    · rintro rfl
      rw [List.forall₂_map_right_iff]
      exact List.forall₂_same.mpr fun r _ => (h1 _ _).mpr rfl
  · rw [List.forall₂_map_left_iff]
    intro h
    unfold errorRates
    induction h with
    | nil => rfl
    | cons hr _ ih => rw [List.map_cons, List.map_cons, ih, h2 _ _ hr]

/-- What the notebook of figures 9(c) and 9(d) reports of the fits when the runs `runs` are used and run `r` loses the fraction `ε r`
per layer: the loss is the mean of these, and its spread theirs. -/
def Reports (runs : List (Fin 10)) (ε : Fin 10 → ℝ) (alphas : List ℝ) : Prop :=
  alphas = runs.map (fun r => 1 - ε r) ∧ lossEstimate alphas = mean (runs.map ε) ∧ std alphas = std (runs.map ε) ∧
    relativeLoss alphas = std (runs.map ε) / mean (runs.map ε)

theorem Paper.reports_of_eq {runs : List (Fin 10)} (hr : runs ≠ []) {ε : Fin 10 → ℝ} {alphas : List ℝ}
    (h : alphas = runs.map fun r => 1 - ε r) : Reports runs ε alphas := by
  have hne : alphas ≠ [] := by
    rw [h]
    simpa using hr
  obtain ⟨h1, h2, -⟩ := C104_std hne
  have hε : alphas.map (fun a => 1 - a) = runs.map ε := by
    rw [h, List.map_map]
    refine List.map_congr_left fun r _ => ?_
    dsimp only [Function.comp]
    ring
  rw [hε] at h1 h2
  refine ⟨h, h2.symm, h1.symm, ?_⟩
  unfold relativeLoss
  rw [h1, h2]
  rfl

/-- C104: figure 9(c) for RAV as a whole: when in run `r` every layer loses the fraction `ε r`, whichever files there are and in whatever
order, the fits report the mean and the spread of the losses in the runs that are used. -/
theorem C104_rav {shots : ℕ} (hs : 0 < shots) (p : ℕ → Fin 4 → ℝ) {ε : Fin 10 → ℝ} (hε : ∀ r, 0 ≤ ε r ∧ ε r ≤ 1) (text : ℕ → List Char)
    {L : ℕ → ℕ} (hL : L = fun n => get2QGateCount (readText (text n))) {ns : List ℕ} (h : ∀ n ∈ ns, ∃ m, 1 ≤ m ∧ m ≤ 50 ∧ n = 2 * m)
    (hp : ∀ n ∈ ns, p n 0 ≠ 1 / 4) (hpos : ∃ n ∈ ns, 0 < L n) :
    ∃ rs, filesToList "rav/".toList (directory "rav") (ns.map fun n => (fileName n, text n))
        (fun i _ => index (discardOdd (measured.map fun n => p n 0)) i) shots
        (discardOdd (measured.map fun n r k => shots * outputProbs (1 - (1 - ε r) ^ L n) (p n) k)) = .ok rs ∧
      ∀ alphas, RunFits exponentialFunc (rs.map (·.cycleDepth)) (allSuccessRates (ravIgnored shots) ravRate rs) alphas ↔
        Reports (ravRuns shots) ε alphas := by
  obtain ⟨rs, h1, h2, h3⟩ := C101_rav hs (ravIgnored shots) p (fun n (r : Fin 10) => 1 - (1 - ε r) ^ L n) text h hp
  refine ⟨rs, h1, fun alphas => ?_⟩
  have hruns : ((List.finRange 10).filter fun r : Fin 10 => decide (r.val ∉ ravIgnored shots)) = ravRuns shots :=
    ravRuns_eq shots
  have hne : ravRuns shots ≠ [] := by
    unfold ravRuns
    split_ifs <;> simp
  rw [h2, h3, hruns]
  simp only [sub_sub_cancel]
  rw [show (fun n => get2QGateCount (readText (text n))) = L from hL.symm, (C104_fits _ hε hpos alphas).1]
  exact ⟨fun h => reports_of_eq hne h, fun h => h.1⟩

/-- C104: the same for XEB. -/
theorem C104_xeb {shots : ℕ} (hs : 0 < shots) (p : ℕ → Fin 4 → ℝ) {ε : Fin 10 → ℝ} (hε : ∀ r, 0 ≤ ε r ∧ ε r ≤ 1) (text : ℕ → List Char)
    {L : ℕ → ℕ} (hL : L = fun n => get2QGateCount (readText (text n))) {ns : List ℕ} (h : ∀ n ∈ ns, ∃ m, 1 ≤ m ∧ m ≤ 50 ∧ n = 2 * m)
    (hp : ∀ n ∈ ns, IsDistribution (p n) ∧ ¬ IsUniform (p n)) (hpos : ∃ n ∈ ns, 0 < L n) :
    ∃ rs, filesToList "xeb/".toList (directory "xeb") (ns.map fun n => (fileName n, text n))
        (fun i _ => index (discardOdd (measured.map p)) i) shots
        (discardOdd (measured.map fun n r k => shots * outputProbs (1 - (1 - ε r) ^ L n) (p n) k)) = .ok rs ∧
      ∀ alphas, RunFits exponentialFunc (rs.map (·.cycleDepth)) (allSuccessRates (xebIgnored shots) xebRate rs) alphas ↔
        Reports (xebRuns shots) ε alphas := by
  obtain ⟨rs, h1, h2, h3⟩ := C101_xeb hs (xebIgnored shots) p (fun n (r : Fin 10) => 1 - (1 - ε r) ^ L n) text h hp
  refine ⟨rs, h1, fun alphas => ?_⟩
  have hruns : ((List.finRange 10).filter fun r : Fin 10 => decide (r.val ∉ xebIgnored shots)) = xebRuns shots :=
    xebRuns_eq shots
  have hne : xebRuns shots ≠ [] := by
    unfold xebRuns
    split_ifs <;> simp
  rw [h2, h3, hruns]
  simp only [sub_sub_cancel]
  rw [show (fun n => get2QGateCount (readText (text n))) = L from hL.symm, (C104_fits _ hε hpos alphas).1]
  exact ⟨fun h => reports_of_eq hne h, fun h => h.1⟩

/-- C104: the ratios of the two notebooks compare the relative spread of the errors that XEB sees with that of the errors that RAV
sees; relative spreads do not change when all errors are multiplied by the same positive number. -/
theorem C104_relative {runs runs' : List (Fin 10)} {ε ε' : Fin 10 → ℝ} {rav xeb : List ℝ} (h : Reports runs ε rav)
    (h' : Reports runs' ε' xeb) (rs xs : List ℝ) :
    lossRatio xeb rav = (std (runs'.map ε') * mean (runs.map ε)) / (mean (runs'.map ε') * std (runs.map ε)) ∧
    errorRatio xs rs = (std xs * mean rs) / (mean xs * std rs) ∧
    (rs ≠ [] → ∀ c, 0 < c → relativeError (rs.map (c * ·)) = relativeError rs) := by
  refine ⟨?_, ?_, fun hne c hc => ?_⟩
  · unfold lossRatio
    rw [h.2.2.2, h'.2.2.2, div_div_div_eq]
  · unfold errorRatio relativeError
    rw [div_div_div_eq]
  · unfold relativeError
    rw [(C104_std hne).2.2.2.2.1 c, abs_of_pos hc]
    have : mean (rs.map (c * ·)) = c * mean rs := by
      unfold mean
      rw [List.sum_map_mul_left, List.length_map, mul_div_assoc, List.map_id']
    rw [this, mul_div_mul_left _ _ hc.ne']

/-- C104: when RAV and XEB see the same losses in the same runs the ratio of their relative spreads is 1, in both notebooks, unless
all losses are equal or their mean is 0. -/
theorem C104_ratio {runs : List (Fin 10)} (hr : runs ≠ []) {ε : Fin 10 → ℝ} (hm : mean (runs.map ε) ≠ 0)
    (hne : ∃ r ∈ runs, ∃ s ∈ runs, ε r ≠ ε s) :
    (∀ rav xeb, Reports runs ε rav → Reports runs ε xeb → lossRatio xeb rav = 1) ∧ errorRatio (runs.map ε) (runs.map ε) = 1 := by
  have h0 : std (runs.map ε) ≠ 0 := by
    intro h
    obtain ⟨r, h1, s, h2, h3⟩ := hne
    exact h3 ((C104_std (by simpa using hr)).2.2.2.1.mp h _ (List.mem_map_of_mem h1) _ (List.mem_map_of_mem h2))
  constructor
  · intro rav xeb h1 h2
    unfold lossRatio
    rw [h1.2.2.2, h2.2.2.2, div_self (div_ne_zero h0 hm)]
  · unfold errorRatio relativeError
    rw [div_self (div_ne_zero h0 hm)]

/-- C104: but for 50 shots figure 9 compares different runs of RAV and XEB, so that equal losses in equal runs need not give 1. -/
theorem C104_other_runs : ∃ ε : Fin 10 → ℝ, (∀ r, 0 ≤ ε r ∧ ε r ≤ 1) ∧
    ∀ rav xeb, Reports (ravRuns 50) ε rav → Reports (xebRuns 50) ε xeb → 1 < lossRatio xeb rav := by
  refine ⟨![0.3, 0.1, 0.1, 0.2, 0.1, 0.1, 0.1, 0.1, 0.1, 0.1], fun r => ?_, fun rav xeb h1 h2 => ?_⟩
  · fin_cases r <;> norm_num
  unfold lossRatio
  rw [h1.2.2.2, h2.2.2.2]
  have e1 : (ravRuns 50).map ![(0.3 : ℝ), 0.1, 0.1, 0.2, 0.1, 0.1, 0.1, 0.1, 0.1, 0.1] = [0.2, 0.1, 0.1, 0.1, 0.1, 0.1, 0.1] := rfl
  have e2 : (xebRuns 50).map ![(0.3 : ℝ), 0.1, 0.1, 0.2, 0.1, 0.1, 0.1, 0.1, 0.1, 0.1] =
    [0.3, 0.1, 0.1, 0.2, 0.1, 0.1, 0.1, 0.1, 0.1, 0.1] := rfl
  rw [e1, e2]
  have s1 := (std_facts (l := [(0.2 : ℝ), 0.1, 0.1, 0.1, 0.1, 0.1, 0.1]) (by simp)).1
  have s2 := (std_facts (l := [(0.3 : ℝ), 0.1, 0.1, 0.2, 0.1, 0.1, 0.1, 0.1, 0.1, 0.1]) (by simp)).1
  have p1 : 0 ≤ std [(0.2 : ℝ), 0.1, 0.1, 0.1, 0.1, 0.1, 0.1] := Real.sqrt_nonneg _
  have p2 : 0 ≤ std [(0.3 : ℝ), 0.1, 0.1, 0.2, 0.1, 0.1, 0.1, 0.1, 0.1, 0.1] := Real.sqrt_nonneg _
  have m1 : mean [(0.2 : ℝ), 0.1, 0.1, 0.1, 0.1, 0.1, 0.1] = 4 / 35 := by norm_num [mean]
  have m2 : mean [(0.3 : ℝ), 0.1, 0.1, 0.2, 0.1, 0.1, 0.1, 0.1, 0.1, 0.1] = 13 / 100 := by norm_num [mean]
  rw [m1] at s1 ⊢
  rw [m2] at s2 ⊢
  set a := std [(0.2 : ℝ), 0.1, 0.1, 0.1, 0.1, 0.1, 0.1]
  set b := std [(0.3 : ℝ), 0.1, 0.1, 0.2, 0.1, 0.1, 0.1, 0.1, 0.1, 0.1]
  norm_num [mean] at s1 s2
  have ha : 0 < a := lt_of_le_of_ne p1 fun h => by
    rw [← h] at s1
    norm_num at s1
  rw [lt_div_iff₀ (by positivity), one_mul]
  refine lt_of_pow_lt_pow_left₀ 2 (by positivity) ?_
  rw [div_pow, div_pow b, s1, s2]
  norm_num

/-- C104: two files of one layer, a run of which loses a tenth per layer: the losses are found. -/
example (ε : Fin 10 → ℝ) (hε : ε = fun r => if r = 0 then 1 / 10 else 1 / 20) :
    ∃ rs, filesToList "rav/".toList (directory "rav") ([2, 4].map fun n => (fileName n, List.replicate 5 '\n' ++ "MS\n".toList))
        (fun i _ => index (discardOdd (measured.map fun _ => (![1, 0, 0, 0] : Fin 4 → ℝ) 0)) i) 1000
        (discardOdd (measured.map fun _ r k => (1000 : ℕ) * outputProbs (1 - (1 - ε r) ^ 1) ![1, 0, 0, 0] k)) = .ok rs ∧
      ∀ alphas, RunFits exponentialFunc (rs.map (·.cycleDepth)) (allSuccessRates (ravIgnored 1000) ravRate rs) alphas ↔
        Reports (ravRuns 1000) ε alphas := by
  have hc : get2QGateCount (readText (List.replicate 5 '\n' ++ "MS\n".toList)) = 1 := by decide
  refine C104_rav (by norm_num) (fun _ => ![1, 0, 0, 0]) (fun r => ?_) (fun _ => List.replicate 5 '\n' ++ "MS\n".toList)
    (L := fun _ => 1) (by rw [hc]) ?_ ?_ ⟨2, by simp, one_pos⟩
  · rw [hε]
    dsimp only
    split_ifs <;> norm_num
  · intro n hn
    simp only [List.mem_cons, List.not_mem_nil, or_false] at hn
    rcases hn with rfl | rfl
    · exact ⟨1, by norm_num⟩
    · exact ⟨2, by norm_num⟩
  · intro n _
    norm_num

/-- C104: a fit of the runs exists, so that the equivalences are not about nothing. -/
example : RunFits exponentialFunc [1, 2] [[9 / 10, 81 / 100], [1 / 2, 1 / 4]] [9 / 10, 1 / 2] := by
  have := (C104_fits [(1 / 10 : ℝ), 1 / 2] (ε := fun r => max 0 (min 1 r)) (fun r => by constructor <;> simp) (ns := [1, 2]) (L := id)
    ⟨1, by simp, one_pos⟩ [9 / 10, 1 / 2]).1
  norm_num at this
  exact this

end Stoq
