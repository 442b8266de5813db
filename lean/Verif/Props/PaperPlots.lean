import Mathlib.Data.List.GetD
import Mathlib.Algebra.BigOperators.Fin
import Verif.Model.PaperPlots
import Verif.Spec.Buckets
import Verif.Props.CompileExamples

/-!
# C91: the cost curves of the paper

The points of the curves are at the multiples of the bucket size, one for every started bucket.  The value is the mean over
the bucket without its last step, so it is not the mean over the bucket; it differs from it by at most one over the bucket size.
-/

namespace Stoq

namespace Paper

theorem npMean_some {l : List ℝ} (h : l ≠ []) : npMean (l.map some) = some (l.sum / l.length) := by
  have : ∀ l : List ℝ, (l.map some).foldr (fun a acc => do return (← a) + (← acc)) (some 0) = some l.sum := fun l => by
    induction l with
    | nil => rfl
    | cons a l ih => rw [List.map_cons, List.foldr_cons, ih]; rfl
  rw [npMean, if_neg (by simpa using h), this]
  simp

theorem slice_sum (l : List ℝ) (a b : ℕ) (hb : b ≤ l.length) :
    ((l.take b).drop a).sum = ∑ j ∈ Finset.Ico a b, l.getD j 0 := by
  induction b with
  | zero => simp
  | succ b ih =>
    rw [List.take_add_one, List.getElem?_eq_getElem (by omega)]
    by_cases hab : a ≤ b
    · rw [Finset.sum_Ico_succ_top hab, List.drop_append_of_le_length (by simp; omega), List.sum_append, ih (by omega)]
      simp [List.getD_eq_getElem?_getD, show b < l.length by omega]
    · rw [Finset.Ico_eq_empty (by omega), Finset.sum_empty, List.drop_eq_nil_of_le (by simp; omega), List.sum_nil]

/-- The value of a point. -/
theorem slice_mean (l : List ℝ) {a c : ℕ} (ha : a < l.length) (hac : a < c) :
    npMean (((l.take c).drop a).map some) = some (meanOver (fun j => l.getD j 0) a (min c l.length)) := by
  have hlen : ((l.take c).drop a).length = min c l.length - a := by simp
  rw [npMean_some (List.ne_nil_of_length_pos (by rw [hlen]; omega)), hlen, Nat.cast_sub (by omega), meanOver,
    ← slice_sum l a _ (min_le_right _ _)]
  congr 4
  rcases le_total c l.length with h | h
  · rw [min_eq_left h]
  · rw [min_eq_right h, List.take_of_length_le h, List.take_of_length_le le_rfl]

end Paper

open Paper

/-- C91: the points are at the multiples of the bucket size below the number of costs, in increasing order. -/
theorem C91_points (len : ℕ) {b : ℕ} (hb : 0 < b) : ∃ x, bucketStarts len b = .ok x ∧ x.Pairwise (· < ·) ∧
    ∀ i, i ∈ x ↔ b ∣ i ∧ i < len := by
  refine ⟨_, by rw [bucketStarts, if_neg hb.ne'], ?_, fun i => ?_⟩
  · exact List.pairwise_lt_range.map _ fun i j h => Nat.mul_lt_mul_of_pos_right h hb
  · rw [List.mem_map]
    constructor
    · rintro ⟨k, hk, rfl⟩
      rw [List.mem_range, Nat.lt_div_iff_mul_lt hb] at hk
      exact ⟨Dvd.intro_left _ rfl, by omega⟩
    · rintro ⟨⟨k, rfl⟩, hi⟩
      refine ⟨k, ?_, Nat.mul_comm _ _⟩
      rw [List.mem_range, Nat.lt_div_iff_mul_lt hb, Nat.mul_comm]
      omega

/-- C91: for bucket sizes of at least 2, the value of the point at `k * b` is the mean over the first `b - 1` steps of the
bucket, or over all its steps if there are fewer. -/
theorem C91_values {b : ℕ} (hb : 2 ≤ b) (costs : List ℝ) : ∃ ys, bucketCosts b costs = .ok ys ∧
    ys.length = (costs.length + b - 1) / b ∧ ∀ k < ys.length, k * b < costs.length ∧
      ys[k]? = some (some (meanOver (fun j => costs.getD j 0) (k * b) (min (k * b + b - 1) costs.length))) := by
  refine ⟨_, by rw [bucketCosts, bucketStarts, if_neg (by omega)]; rfl, by simp, fun k hk => ?_⟩
  have hk' : k < (costs.length + b - 1) / b := by simpa using hk
  have hlt : k * b < costs.length := by
    rw [Nat.lt_div_iff_mul_lt (by omega)] at hk'
    omega
  refine ⟨hlt, ?_⟩
  rw [List.map_map, List.getElem?_map, List.getElem?_range hk']
  exact congrArg some (slice_mean costs hlt (by omega))

/-- C91: with bucket size 1 no point has a value, and size 0 raises. -/
theorem C91_degenerate (costs : List ℝ) : bucketCosts 0 costs = .error .zeroDivision ∧
    bucketCosts 1 costs = .ok (List.replicate costs.length none) := by
  constructor
  · rfl
  · rw [bucketCosts, bucketStarts, if_neg one_ne_zero]
    refine congrArg Except.ok (List.eq_replicate_iff.mpr ⟨by simp, fun y hy => ?_⟩)
    obtain ⟨i, -, rfl⟩ := List.mem_map.mp hy
    rw [List.drop_eq_nil_of_le (by simp)]
    rfl

theorem meanOver_mem {f : ℕ → ℝ} {a b : ℕ} (hab : a < b) {lo hi : ℝ} (h : ∀ j, a ≤ j → j < b → lo ≤ f j ∧ f j ≤ hi) :
    lo ≤ meanOver f a b ∧ meanOver f a b ≤ hi := by
  have hpos : (0 : ℝ) < (b : ℝ) - a := by
    have : (a : ℝ) < b := by exact_mod_cast hab
    linarith
  have hc : ((Finset.Ico a b).card : ℝ) = (b : ℝ) - a := by rw [Nat.card_Ico, Nat.cast_sub hab.le]
  have h1 := Finset.card_nsmul_le_sum (Finset.Ico a b) f lo fun j hj => (h j (Finset.mem_Ico.mp hj).1 (Finset.mem_Ico.mp hj).2).1
  have h2 := Finset.sum_le_card_nsmul (Finset.Ico a b) f hi fun j hj => (h j (Finset.mem_Ico.mp hj).1 (Finset.mem_Ico.mp hj).2).2
  rw [nsmul_eq_mul, hc] at h1 h2
  rw [meanOver, le_div_iff₀ hpos, div_le_iff₀ hpos]
  exact ⟨by linarith, by linarith⟩

/-- C91: for costs in an interval the values are in the interval. -/
theorem C91_range {b : ℕ} (hb : 2 ≤ b) {costs : List ℝ} {lo hi : ℝ} (h : ∀ x ∈ costs, lo ≤ x ∧ x ≤ hi) :
    ∃ vs : List ℝ, bucketCosts b costs = .ok (vs.map some) ∧ vs.length = (costs.length + b - 1) / b ∧ ∀ v ∈ vs, lo ≤ v ∧ v ≤ hi := by
  obtain ⟨ys, h1, h2, h3⟩ := C91_values hb costs
  refine ⟨(List.range ys.length).map fun k => meanOver (fun j => costs.getD j 0) (k * b) (min (k * b + b - 1) costs.length),
    ?_, by simpa using h2, fun v hv => ?_⟩
  · rw [h1]
    refine congrArg Except.ok (List.ext_getElem? fun k => ?_)
    by_cases hk : k < ys.length
    · rw [(h3 k hk).2, List.map_map, List.getElem?_map, List.getElem?_range hk]
      rfl
    · rw [List.getElem?_eq_none (by omega), List.getElem?_eq_none (by simpa using hk)]
  · obtain ⟨k, hk, rfl⟩ := List.mem_map.mp hv
    have hlt := (h3 k (List.mem_range.mp hk)).1
    refine meanOver_mem (by omega) fun j _ hj => ?_
    have hj' : j < costs.length := by omega
    rw [List.getD_eq_getElem _ _ hj']
    exact h _ (List.getElem_mem _)

/-- C91: the value of a point differs from the mean over the whole bucket by at most one over the bucket size if the costs
are between 0 and 1. -/
theorem C91_close_to_bucket_mean {f : ℕ → ℝ} (hf : ∀ j, 0 ≤ f j ∧ f j ≤ 1) {b : ℕ} (hb : 2 ≤ b) (i len : ℕ) :
    |meanOver f i (min (i + b - 1) len) - meanOver f i (min (i + b) len)| ≤ 1 / b ∧
    (len < i + b → meanOver f i (min (i + b - 1) len) = meanOver f i (min (i + b) len)) := by
  have heq : len < i + b → min (i + b - 1) len = min (i + b) len := fun h => by omega
  refine ⟨?_, fun h => by rw [heq h]⟩
  by_cases h : len < i + b
  · rw [heq h, sub_self, abs_zero]
    positivity
  · push Not at h
    rw [min_eq_left (by omega), min_eq_left h]
    obtain ⟨m, hm⟩ : ∃ m, i + b = (i + m) + 1 ∧ b = m + 1 ∧ 1 ≤ m := ⟨b - 1, by omega, by omega, by omega⟩
    obtain ⟨h1, h2, h3⟩ := hm
    rw [show i + b - 1 = i + m by omega, h1]
    have hm0 : (0 : ℝ) < m := by exact_mod_cast h3
    have hb' : (b : ℝ) = m + 1 := by rw [h2]; push_cast; ring
    have hmem := meanOver_mem (f := f) (a := i) (b := i + m) (by omega) (lo := 0) (hi := 1) fun j _ _ => hf j
    have hsum : ∑ j ∈ Finset.Ico i (i + m), f j = meanOver f i (i + m) * m := by
      rw [meanOver, Nat.cast_add, add_sub_cancel_left, div_mul_cancel₀ _ hm0.ne']
    have : meanOver f i (i + m + 1) = (meanOver f i (i + m) * m + f (i + m)) / (m + 1) := by
      rw [← hsum, meanOver, Finset.sum_Ico_succ_top (by omega)]
      push_cast
      congr 1
      ring
    rw [this, hb', abs_le]
    have hx := hf (i + m)
    constructor
    · rw [← sub_nonneg]
      have : meanOver f i (i + m) - (meanOver f i (i + m) * m + f (i + m)) / (m + 1) - -(1 / (m + 1)) =
          (meanOver f i (i + m) + (1 - f (i + m))) / (m + 1) := by field_simp; ring
      rw [this]
      exact div_nonneg (by linarith) (by linarith)
    · rw [← sub_nonneg]
      have : 1 / ((m : ℝ) + 1) - (meanOver f i (i + m) - (meanOver f i (i + m) * m + f (i + m)) / (m + 1)) =
          (1 - meanOver f i (i + m) + f (i + m)) / (m + 1) := by field_simp; ring
      rw [this]
      exact div_nonneg (by linarith) (by linarith)

/-- C91: the values are not the means over the buckets: the last cost of a full bucket does not count.  For every bucket
size there are costs between 0 and 1 for which the value is 0 and the mean over the bucket is one over its size. -/
theorem C91_not_bucket_mean {b : ℕ} (hb : 2 ≤ b) : ∃ costs : List ℝ, (∀ x ∈ costs, 0 ≤ x ∧ x ≤ 1) ∧ costs.length = b ∧
    bucketCosts b costs = .ok [some 0] ∧ meanOver (fun j => costs.getD j 0) 0 b = 1 / b := by
  obtain ⟨m, rfl⟩ : ∃ m, b = m + 1 := ⟨b - 1, by omega⟩
  have hlen : (List.replicate m (0 : ℝ) ++ [1]).length = m + 1 := by simp
  have hz : ∑ j ∈ Finset.Ico 0 m, (List.replicate m (0 : ℝ) ++ [1]).getD j 0 = 0 := Finset.sum_eq_zero fun j hj => by
    have := (Finset.mem_Ico.mp hj).2
    simp [List.getD_eq_getElem?_getD, List.getElem?_append, this]
  refine ⟨List.replicate m 0 ++ [1], ?_, hlen, ?_, ?_⟩
  · intro x hx
    rcases List.mem_append.mp hx with h | h
    · rw [(List.mem_replicate.mp h).2]; norm_num
    · rw [List.mem_singleton.mp h]; norm_num
  · obtain ⟨ys, h1, h2, h3⟩ := C91_values hb (List.replicate m (0 : ℝ) ++ [1])
    rw [hlen, show (m + 1 + (m + 1) - 1) / (m + 1) = 1 by
      rw [Nat.div_eq_iff (by omega)]; omega] at h2
    obtain ⟨y, rfl⟩ := List.length_eq_one_iff.mp h2
    have h4 := (h3 0 (by simp)).2
    rw [h1]
    rw [hlen, zero_mul, min_eq_left (by omega), meanOver, show 0 + (m + 1) - 1 = m by omega, hz, zero_div] at h4
    simpa using h4
  · rw [meanOver, Finset.sum_Ico_succ_top (by omega), hz]
    simp [List.getD_eq_getElem?_getD]

/-- C91: the average curve exists exactly if there is a result and all curves have the same number of points. -/
theorem C91_average_defined (rows : List (List (Option ℝ))) :
    (∃ avg, costsAvg rows = .ok avg) ↔ rows ≠ [] ∧ ∀ r ∈ rows, ∀ s ∈ rows, r.length = s.length := by
  rcases rows with _ | ⟨r, rs⟩
  · simp [costsAvg]
  · unfold costsAvg
    dsimp only
    by_cases h : ∀ s ∈ rs, s.length = r.length
    · rw [if_pos h]
      refine ⟨fun _ => ⟨by simp, fun a ha b hb => ?_⟩, fun _ => ⟨_, rfl⟩⟩
      have : ∀ s ∈ r :: rs, s.length = r.length := by simpa using h
      rw [this a ha, this b hb]
    · rw [if_neg h]
      simp only [reduceCtorEq, exists_false, false_iff, not_and]
      exact fun _ hall => h fun s hs => hall s (by simp [hs]) r (by simp)

/-- C91: at every point the average curve is the mean over the results. -/
theorem C91_average (rows : List (List ℝ)) (hne : rows ≠ []) {k : ℕ} (hk : ∀ r ∈ rows, r.length = k) :
    ∃ avg : List ℝ, costsAvg (rows.map (·.map some)) = .ok (avg.map some) ∧ avg.length = k ∧
      ∀ j (hj : j < avg.length), avg[j] * rows.length = (rows.map fun r => r.getD j 0).sum := by
  refine ⟨(List.range k).map fun j => (rows.map fun r => r.getD j 0).sum / rows.length, ?_, by simp, fun j hj => ?_⟩
  · rcases rows with _ | ⟨r, rs⟩
    · exact absurd rfl hne
    unfold costsAvg
    rw [List.map_cons]
    dsimp only
    rw [if_pos (by
      intro s hs
      obtain ⟨s', hs', rfl⟩ := List.mem_map.mp hs
      rw [List.length_map, List.length_map, hk s' (by simp [hs']), hk r (by simp)])]
    refine congrArg Except.ok ?_
    rw [List.length_map, hk r (by simp), List.map_map]
    refine List.map_congr_left fun j hj => ?_
    have : ((r.map some :: rs.map (·.map some)).map fun s => s.getD j none) = ((r :: rs).map fun s => s.getD j 0).map some := by
      rw [← List.map_cons (f := fun l : List ℝ => l.map some), List.map_map, List.map_map]
      refine List.map_congr_left fun s hs => ?_
      have hjs : j < s.length := by rw [hk s hs]; exact List.mem_range.mp hj
      simp [List.getD_eq_getElem?_getD, hjs]
    rw [this, npMean_some (by simp)]
    simp
  · have : (rows.length : ℝ) ≠ 0 := by simpa using hne
    rw [List.getElem_map, List.getElem_range, div_mul_cancel₀ _ this]

/-- C91: for results of `m` steps each with costs between 0 and 1, everything is plotted, with `⌈m / b⌉` points per curve and
all values, also those of the average curve, between 0 and 1. -/
theorem C91_curves {b m : ℕ} (hb : 2 ≤ b) {results : List (List ℝ)} (hne : results ≠ [])
    (h : ∀ r ∈ results, r.length = m ∧ ∀ x ∈ r, 0 ≤ x ∧ x ≤ 1) :
    ∃ (rows : List (List ℝ)) (avg : List ℝ), costCurves b results = .ok (rows.map (·.map some), avg.map some) ∧
      rows.length = results.length ∧ (∀ r ∈ rows, r.length = (m + b - 1) / b ∧ ∀ v ∈ r, 0 ≤ v ∧ v ≤ 1) ∧
      avg.length = (m + b - 1) / b ∧ ∀ v ∈ avg, 0 ≤ v ∧ v ≤ 1 := by
  obtain ⟨rows, hrows, hlen, hin⟩ : ∃ rows : List (List ℝ), results.mapM (bucketCosts b) = .ok (rows.map (·.map some)) ∧
      rows.length = results.length ∧ ∀ r ∈ rows, r.length = (m + b - 1) / b ∧ ∀ v ∈ r, 0 ≤ v ∧ v ≤ 1 := by
    clear hne
    induction results with
    | nil => exact ⟨[], rfl, rfl, by simp⟩
    | cons r rs ih =>
      obtain ⟨rows, h1, h2, h3⟩ := ih fun s hs => h s (by simp [hs])
      obtain ⟨vs, k1, k2, k3⟩ := C91_range hb (h r (by simp)).2
      rw [(h r (by simp)).1] at k2
      refine ⟨vs :: rows, ?_, by simp [h2], ?_⟩
      · rw [List.mapM_cons, k1, h1]
        rfl
      · simpa using ⟨⟨k2, k3⟩, h3⟩
  have hne' : rows ≠ [] := fun h0 => hne (List.length_eq_zero_iff.mp (by rw [← hlen, h0]; rfl))
  obtain ⟨avg, h1, h2, h3⟩ := C91_average rows hne' fun r hr => (hin r hr).1
  refine ⟨rows, avg, ?_, hlen, hin, h2, fun v hv => ?_⟩
  · rw [costCurves, hrows]
    change (costsAvg (rows.map (·.map some)) >>= fun avg => pure (rows.map (·.map some), avg)) = _
    rw [h1]
    rfl
  · obtain ⟨j, hj, rfl⟩ := List.getElem_of_mem hv
    have hpos : (0 : ℝ) < rows.length := by exact_mod_cast List.length_pos_iff.mpr hne'
    have hall : ∀ x ∈ rows.map (fun r => r.getD j 0), 0 ≤ x ∧ x ≤ 1 := by
      intro x hx
      obtain ⟨r, hr, rfl⟩ := List.mem_map.mp hx
      have hjr : j < r.length := by rw [(hin r hr).1, ← h2]; exact hj
      rw [List.getD_eq_getElem _ _ hjr]
      exact (hin r hr).2 _ (List.getElem_mem _)
    have g1 := List.sum_nonneg fun x hx => (hall x hx).1
    have g2 := List.sum_le_card_nsmul (rows.map fun r => r.getD j 0) 1 fun x hx => (hall x hx).2
    rw [nsmul_eq_mul, List.length_map, mul_one] at g2
    have h4 := h3 j hj
    constructor
    · by_contra hlt
      push Not at hlt
      nlinarith
    · by_contra hlt
      push Not at hlt
      nlinarith

/-- The costs of a compilation of a unitary on `n` qubits that was not finished before step `m`. -/
def FullRun (n m : ℕ) (costs : List ℝ) : Prop :=
  ∃ (c : Client) (Cs : List Compiler) (C : Compiler) (target : Unitary) (threshold : Option ℝ) (R : CompilerResult) (w' : World),
    Session 0 c Cs ∧ C ∈ Cs ∧ (∀ x ∈ c.world.entries, x.toVal.Exact) ∧ C.dimension = 2 ^ n ∧
    (∀ p ∈ C.primitives, p.Valid n) ∧ target.Exact (2 ^ n) ∧ C.compile 0 target threshold m c.world = (.ok R, w') ∧
    R.costByStep = costs ∧ (∀ p, Seq.product 0 R.sequence w' = (.ok p, w') → p.closeTo 0 target threshold ≠ .ok true)

/-- C91: for compilations by `compile` of `m` steps each, the curves exist and all values are between 0 and 1. -/
theorem C91_compiled {n b m : ℕ} (hb : 2 ≤ b) {results : List (List ℝ)} (hne : results ≠ [])
    (h : ∀ r ∈ results, FullRun n m r) :
    ∃ (rows : List (List ℝ)) (avg : List ℝ), costCurves b results = .ok (rows.map (·.map some), avg.map some) ∧
      rows.length = results.length ∧ (∀ r ∈ rows, r.length = (m + b - 1) / b ∧ ∀ v ∈ r, 0 ≤ v ∧ v ≤ 1) ∧
      avg.length = (m + b - 1) / b ∧ ∀ v ∈ avg, 0 ≤ v ∧ v ≤ 1 := by
  refine C91_curves hb hne fun r hr => ?_
  obtain ⟨c, Cs, C, target, threshold, R, w', hs, hC, hex, hD, hprims, ht, hcomp, rfl, hnot⟩ := h r hr
  refine ⟨?_, (C32_compile_costs hs hC hex hD hprims (compile_truthy hcomp) ht threshold m R w' hcomp).1⟩
  rcases (C30_compile_stops hs hC hcomp).2 with ⟨p, h1, h2⟩ | h1
  · exact absurd h2 (hnot p h1)
  · omega

/-- Two results of five steps in buckets of two: three points each, and the third is over the single last step.  The costs
of the second and fourth step do not count. -/
example : costCurves 2 [[1, 7, 1 / 2, 7, 1 / 4], [0, 7, 1 / 2, 7, 3 / 4]] =
    .ok ([[some 1, some (1 / 2), some (1 / 4)], [some 0, some (1 / 2), some (3 / 4)]], [some (1 / 2), some (1 / 2), some (1 / 2)]) := by
  norm_num [costCurves, bucketCosts, bucketStarts, costsAvg, npMean, List.range_succ, List.mapM_cons, bind, Except.bind, pure, Except.pure]
  refine ⟨?_, ?_, ?_⟩ <;> simp

/-- Results of different lengths have no average curve. -/
example : costCurves 2 [[1, 1, 1], [1, 1]] = .error .valueError := by
  norm_num [costCurves, bucketCosts, bucketStarts, costsAvg, npMean, List.range_succ, List.mapM_cons, bind, Except.bind, pure, Except.pure]

/-- A threshold above 1 is never met, so a compilation of five steps with it is a full run. -/
example (rng : Rng) : ∃ costs, FullRun 1 5 costs ∧ costs.length = 5 := by
  have hs := zSession 0 rng (1 / 2) 1
  obtain ⟨R, w', h⟩ := C33_compile_never_raises hs (C := zCompiler (1 / 2) 1 0) (by simp) (zClient_entries rng)
    (n := 1) rfl (zCompiler_prims _ _ _) (zCompiler_truthy _ _ _) (zCompiler_choice _ _ _)
    ⟨by norm_num [zCompiler], by norm_num [zCompiler]⟩ idTarget_exact (some 2) 5
  have hw := C31_compile_is_walk hs (C := zCompiler (1 / 2) 1 0) (by simp) (zClient_entries rng) (n := 1) rfl (zCompiler_prims _ _ _)
    (zCompiler_truthy _ _ _) idTarget_exact rfl (some 2) 5
  obtain ⟨v, hv, -, -, hprov⟩ := C34_compile_provenance hs (by simp) h
  have hfar : ∀ p, Seq.product 0 R.sequence w' = (.ok p, w') → p.closeTo 0 idTarget (some 2) ≠ .ok true := by
    intro p hp
    unfold FollowsWalk at hw
    rw [h] at hw
    rcases hrun : Metropolis.run 1 (idTarget.matrix.toMatrix (2 ^ 1)) (some 2) (zCompiler (1 / 2) 1 0).annealingRate
        (((2 : ℝ) ^ 2 ^ 1) ^ 2) ((zCompiler (1 / 2) 1 0).proposal 0) (5 : ℤ).toNat ⟨[], 0⟩ (zClient rng).world.rng with ⟨e | tr, r⟩
    · rw [hrun] at hw; cases hw.1
    rw [hrun] at hw
    obtain ⟨-, R', hR, -, ⟨undo, hview⟩, -, ⟨p', hp', hH⟩, -⟩ := hw
    cases hR
    rw [hp] at hp'; cases hp'
    rw [hv] at hview; cases hview
    have hsu : p.matrix.toMatrix (2 ^ 1) ∈ Matrix.specialUnitaryGroup (Fin (2 ^ 1)) ℂ := by
      rw [hH.2.2]
      refine circuit_mem_su fun e he => ?_
      obtain ⟨h1, q, hq, h2, h3⟩ := hprov e he
      obtain rfl := List.mem_singleton.mp hq
      have h4 : e.applyTo = [0] := by
        simpa [zPrim, List.map_eq_cons_iff] using h3
      have h5 : e = zGate := by
        obtain ⟨u, a⟩ := e
        change u = _ at h2
        change a = _ at h4
        subst h2 h4
        rfl
      rw [h5] at h1 ⊢
      exact ⟨h1, by intro q hq; simpa [zGate] using hq, tinyPhase_exact _⟩
    have hpx : p.Exact (2 ^ 1) := ⟨by norm_num, hH.1, hH.2.1, hsu⟩
    rw [Unitary.closeTo_some_eq hpx idTarget_exact]
    have := overlap_le_one (Matrix.mem_specialUnitaryGroup_iff.mp hsu).1
      (Matrix.mem_specialUnitaryGroup_iff.mp idTarget_exact.2.2.2).1
    simp only [ne_eq, Except.ok.injEq, decide_eq_true_eq, not_le]
    linarith
  refine ⟨R.costByStep, ⟨_, _, _, idTarget, some 2, R, w', hs, by simp, zClient_entries rng, rfl, zCompiler_prims _ _ _,
    idTarget_exact, h, rfl, hfar⟩, ?_⟩
  rcases (C30_compile_stops hs (by simp) h).2 with ⟨p, h1, h2⟩ | h1
  · exact absurd h2 (hfar p h1)
  · exact_mod_cast h1

end Stoq
