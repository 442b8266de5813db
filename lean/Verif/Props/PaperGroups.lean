import Verif.Model.PaperGroups
import Verif.Proofs.PaperBins

/-!
# C105: the averages of figures 7 and 12
-/

namespace Stoq

open Paper

theorem Paper.unique_append (l : List ℝ) (x : ℝ) :
    unique (l ++ [x]) = open Classical in if x ∈ unique l then unique l else unique l ++ [x] := by
  unfold unique
  rw [List.foldl_append]
  rfl

/-- C105: every value appears once on the axis, in the order of its first appearance in the table. -/
theorem C105_unique (l : List ℝ) :
    (unique l).Nodup ∧ (∀ x, x ∈ unique l ↔ x ∈ l) ∧ (unique l).Sublist l ∧
    (unique l).Pairwise fun x y => open Classical in l.idxOf x < l.idxOf y := by
  classical
  induction l using List.reverseRecOn with
  | nil => simp [unique]
  | append_singleton l a ih =>
    obtain ⟨h1, h2, h3, h4⟩ := ih
    have h4' : (unique l).Pairwise fun x y => (l ++ [a]).idxOf x < (l ++ [a]).idxOf y :=
      h4.imp_of_mem fun {x y} hx hy h => by
        rw [List.idxOf_append_of_mem ((h2 x).mp hx), List.idxOf_append_of_mem ((h2 y).mp hy)]
        exact h
    rw [unique_append]
    split_ifs with ha
    · refine ⟨h1, fun x => ?_, h3.trans (List.sublist_append_left _ _), h4'⟩
      rw [h2, List.mem_append, List.mem_singleton]
      exact ⟨Or.inl, fun h => h.elim id fun h => h ▸ (h2 a).mp ha⟩
    · refine ⟨?_, fun x => ?_, h3.append (List.Sublist.refl _), ?_⟩
      · rw [List.nodup_append]
        refine ⟨h1, List.nodup_singleton _, fun x hx y hy => ?_⟩
        rw [List.mem_singleton.mp hy]
        rintro rfl
        exact ha hx
      · rw [List.mem_append, List.mem_append, h2]
      · rw [List.pairwise_append]
        refine ⟨h4', List.pairwise_singleton _ _, fun x hx y hy => ?_⟩
        rw [List.mem_singleton.mp hy, List.idxOf_append_of_mem ((h2 x).mp hx),
          List.idxOf_append_of_notMem fun h => ha ((h2 a).mpr h)]
        have := List.idxOf_lt_length_of_mem ((h2 x).mp hx)
        omega

theorem Paper.sum_groups (df : List (ℝ × ℝ)) (f : ℝ → ℝ) {xs : List ℝ} (h : xs.Nodup) (hm : ∀ row ∈ df, row.1 ∈ xs) :
    (xs.map fun x => ((group df x).map f).sum).sum = (df.map fun row => f row.2).sum := by
  classical
  induction df with
  | nil =>
    have : (xs.map fun x => ((group [] x).map f).sum) = xs.map fun _ => (0 : ℝ) := List.map_congr_left fun x _ => by simp [group]
    rw [this]
    simp
  | cons row df ih =>
    have hg : ∀ x, ((group (row :: df) x).map f).sum = (if row.1 = x then f row.2 else 0) + ((group df x).map f).sum := fun x => by
      unfold group
      rw [List.filter_cons]
      by_cases hx : row.1 = x <;> simp [hx]
    simp only [hg]
    rw [List.sum_map_add, ih fun r hr => hm r (List.mem_cons_of_mem _ hr), List.map_cons, List.sum_cons]
    congr 1
    have hr := hm row (by simp)
    clear ih hg hm
    induction xs with
    | nil => simp at hr
    | cons x xs ihx =>
      rw [List.map_cons, List.sum_cons]
      obtain ⟨hx, h'⟩ := List.nodup_cons.mp h
      by_cases e : row.1 = x
      · rw [if_pos e]
        have : (xs.map fun x => if row.1 = x then f row.2 else 0) = xs.map fun _ => (0 : ℝ) := List.map_congr_left fun y hy => by
          rw [if_neg]
          rintro rfl
          exact hx (e ▸ hy)
        rw [this]
        simp
      · rw [if_neg e, zero_add, ihx h' ((List.mem_cons.mp hr).resolve_left e)]

/-- C105: each row of the table is in exactly one group, no group is empty, and the means weighted with the sizes of the groups
give the sum of the column. -/
theorem C105_groups (df : List (ℝ × ℝ)) :
    (∀ x ∈ unique (df.map Prod.fst), group df x ≠ []) ∧
    ((unique (df.map Prod.fst)).map fun x => (group df x).length).sum = df.length ∧
    ((unique (df.map Prod.fst)).map fun x => ((group df x).length : ℝ) * mean (group df x)).sum = (df.map Prod.snd).sum := by
  classical
  obtain ⟨h1, h2, -⟩ := C105_unique (df.map Prod.fst)
  have hne : ∀ x ∈ unique (df.map Prod.fst), group df x ≠ [] := fun x hx => by
    obtain ⟨row, hr, rfl⟩ := List.mem_map.mp ((h2 x).mp hx)
    refine List.ne_nil_of_mem (a := row.2) (List.mem_map.mpr ⟨row, ?_, rfl⟩)
    simp [hr]
  have hm : ∀ row ∈ df, row.1 ∈ unique (df.map Prod.fst) := fun row hr => (h2 _).mpr (List.mem_map_of_mem hr)
  refine ⟨hne, ?_, ?_⟩
  · have := sum_groups df (fun _ => 1) h1 hm
    simp only [List.map_const', List.sum_replicate, nsmul_eq_mul, mul_one] at this
    have e : (((unique (df.map Prod.fst)).map fun x => (group df x).length).sum : ℝ) = df.length := by
      rw [← this, Nat.cast_list_sum, List.map_map]
      rfl
    exact_mod_cast e
  · refine Eq.trans ?_ (sum_groups df id h1 hm)
    refine congrArg List.sum (List.map_congr_left fun x hx => ?_)
    have : ((group df x).length : ℝ) ≠ 0 := by simpa using hne x hx
    unfold mean
    rw [mul_div_cancel₀ _ this, List.map_id]

/-- C105: the error bar of at least two values is their spread divided by the root of one less than their number; it is 0
exactly if they are all equal, and larger than the error bars of figures 8 and 9 would be. -/
theorem C105_sem {l : List ℝ} (h : 2 ≤ l.length) :
    sem l = std l / √(l.length - 1) ∧ (sem l = 0 ↔ ∀ x ∈ l, x = mean l) ∧
    ((∃ x ∈ l, x ≠ mean l) → std l / √l.length < sem l) := by
  have hn : (2 : ℝ) ≤ l.length := by exact_mod_cast h
  have hne : l ≠ [] := by
    rintro rfl
    simp at h
  have h0 : 0 < √((l.length : ℝ) - 1) := Real.sqrt_pos.mpr (by linarith)
  have h1 : 0 < √(l.length : ℝ) := Real.sqrt_pos.mpr (by linarith)
  have key : sem l = std l / √(l.length - 1) := by
    unfold sem std
    rw [show mean (l.map fun y => (y - mean l) ^ 2) = (l.map fun y => (y - mean l) ^ 2).sum / l.length by
      rw [mean, List.length_map], Real.sqrt_div' _ (by linarith), Real.sqrt_div' _ (by linarith), div_div, div_div, mul_comm]
  have hs : std l = 0 ↔ ∀ x ∈ l, x = mean l := (std_facts hne).2
  refine ⟨key, ?_, ?_⟩
  · rw [key, div_eq_zero_iff, hs]
    exact or_iff_left h0.ne'
  · rintro ⟨x, hx, hxm⟩
    rw [key]
    have : 0 < std l := lt_of_le_of_ne (Real.sqrt_nonneg _) fun e => hxm (hs.mp e.symm x hx)
    exact div_lt_div_of_pos_left this h0 (Real.sqrt_lt_sqrt (by linarith) (by linarith))

/-- C105: a point of the figure: its height is the mean of the rows with its error, and its error bar is the error of this mean. -/
theorem C105_points (df : List (ℝ × ℝ)) :
    (groupPoints df).map Prod.fst = unique (df.map Prod.fst) ∧
    ∀ q ∈ groupPoints df, ∃ ys : List ℝ, ys ≠ [] ∧
      (∀ y, ys.count y = df.count (q.1, y)) ∧ q.2.1 * ys.length = ys.sum ∧ 0 ≤ q.2.2 ∧
      (2 ≤ ys.length → q.2.2 ^ 2 * (ys.length * (ys.length - 1)) = (ys.map fun y => (y - q.2.1) ^ 2).sum) := by
  classical
  have hz : ∀ (xs : List ℝ) (f : ℝ → ℝ × ℝ), xs.zip (xs.map f) = xs.map fun x => (x, f x) := fun xs f => by
    induction xs with
    | nil => rfl
    | cons x xs ih => rw [List.map_cons, List.zip_cons_cons, ih, List.map_cons]
  have hp : groupPoints df = (unique (df.map Prod.fst)).map fun x => (x, mean (group df x), sem (group df x)) := by
    unfold groupPoints
    dsimp only
    rw [List.zip_map', hz]
  rw [hp]
  refine ⟨by simp [List.map_map, Function.comp_def], fun q hq => ?_⟩
  obtain ⟨x, hx, rfl⟩ := List.mem_map.mp hq
  have hne := (C105_groups df).1 x hx
  have hpos : (0 : ℝ) < (group df x).length := Nat.cast_pos.mpr (List.length_pos_iff.mpr hne)
  refine ⟨group df x, hne, fun y => ?_, ?_, ?_, fun h2 => ?_⟩
  · unfold group
    rw [List.count_eq_countP, List.count_eq_countP, List.countP_map, List.countP_filter]
    refine List.countP_congr fun r _ => ?_
    obtain ⟨a, b⟩ := r
    simp only [Function.comp_apply, Bool.and_eq_true, beq_iff_eq, decide_eq_true_eq, Prod.mk.injEq]
    exact and_comm
  · dsimp only
    rw [mean, div_mul_cancel₀ _ hpos.ne']
  · exact div_nonneg (Real.sqrt_nonneg _) (Real.sqrt_nonneg _)
  · have h2' : (2 : ℝ) ≤ (group df x).length := by exact_mod_cast h2
    dsimp only
    generalize group df x = l at *
    have hs : 0 ≤ (l.map fun y => (y - mean l) ^ 2).sum := List.sum_nonneg fun z hz => by
      obtain ⟨y, -, rfl⟩ := List.mem_map.mp hz
      positivity
    unfold sem
    rw [div_pow, Real.sq_sqrt (div_nonneg hs (by linarith)), Real.sq_sqrt hpos.le]
    have : (l.length : ℝ) - 1 ≠ 0 := by linarith
    field_simp

/-- C105: if every row is on a curve `g` and each error has at least two rows, the points of the figure are on the curve and have
no error bars. -/
theorem C105_curve {df : List (ℝ × ℝ)} {g : ℝ → ℝ} (h : ∀ row ∈ df, row.2 = g row.1)
    (h2 : ∀ x ∈ df.map Prod.fst, 2 ≤ (group df x).length) :
    groupPoints df = (unique (df.map Prod.fst)).map fun x => (x, g x, 0) := by
  classical
  unfold groupPoints
  dsimp only
  rw [List.zip_map']
  have hz : ∀ (xs : List ℝ) (f : ℝ → ℝ × ℝ), xs.zip (xs.map f) = xs.map fun x => (x, f x) := fun xs f => by
    induction xs with
    | nil => rfl
    | cons x xs ih => rw [List.map_cons, List.zip_cons_cons, ih, List.map_cons]
  rw [hz]
  refine List.map_congr_left fun x hx => ?_
  have hx' := (C105_unique _).2.1 x |>.mp hx
  have hlen := h2 x hx'
  have hrep : group df x = List.replicate (group df x).length (g x) := by
    refine List.eq_replicate_iff.mpr ⟨rfl, fun y hy => ?_⟩
    obtain ⟨row, hr, rfl⟩ := List.mem_map.mp hy
    simp only [List.mem_filter, decide_eq_true_eq] at hr
    rw [h row hr.1, hr.2]
  have hpos : ((group df x).length : ℝ) ≠ 0 := by
    have : (group df x).length ≠ 0 := by omega
    exact_mod_cast this
  have hmean : mean (group df x) = g x := by
    rw [hrep]
    unfold mean
    rw [List.sum_replicate, List.length_replicate, nsmul_eq_mul, mul_div_cancel_left₀ _ hpos]
  have hsem : sem (group df x) = 0 := (C105_sem hlen).2.1.mpr fun y hy => by
    rw [hmean]
    rw [hrep] at hy
    exact List.eq_of_mem_replicate hy
  rw [hmean, hsem]

/-- C105: a table of four rows, two of each error. -/
example (df : List (ℝ × ℝ)) (hdf : df = [(2, 5), (1, 3), (2, 5), (1, 3)]) : groupPoints df = [(2, 5, 0), (1, 3, 0)] := by
  classical
  have hu : unique (df.map Prod.fst) = [2, 1] := by
    rw [hdf]
    simp [unique]
  have hg : ∀ x ∈ [(2 : ℝ), 1], 2 ≤ (group df x).length := fun x hx => by
    simp only [List.mem_cons, List.not_mem_nil, or_false] at hx
    rcases hx with rfl | rfl <;> · rw [hdf]; simp [group]
  rw [C105_curve (g := fun x => 2 * x + 1) ?_ fun x hx => hg x (hu ▸ ((C105_unique _).2.1 x).mpr hx), hu]
  · norm_num
  · rw [hdf]
    norm_num

/-- C105: the error bar of two values is half their distance. -/
example : sem [1, 3] = 1 ∧ std [1, 3] / √(2 : ℕ) < sem [1, 3] := by
  have h := C105_sem (l := [1, 3]) le_rfl
  have hm : mean [(1 : ℝ), 3] = 2 := by norm_num [mean]
  refine ⟨?_, h.2.2 ⟨1, by simp, by rw [hm]; norm_num⟩⟩
  rw [h.1, std, hm]
  norm_num [mean]

end Stoq
