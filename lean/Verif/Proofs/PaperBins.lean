import Mathlib.Algebra.BigOperators.Group.List.Basic
import Mathlib.Algebra.Order.BigOperators.Group.List
import Mathlib.Tactic.Ring
import Mathlib.Tactic.Linarith
import Mathlib.Tactic.FieldSimp
import Mathlib.Data.List.FinRange
import Mathlib.Data.List.Sort
import Verif.Model.PaperBins

/-! # Lemmas on runs and bins -/

namespace Stoq

namespace Paper

theorem slice_length {α : Type} {l : List α} {i j : ℕ} (hj : j ≤ l.length) : (slice l i j).length = j - i := by
  simp [slice, Nat.min_eq_left hj]

/-- The first slices put together. -/
theorem slices_flatten {α : Type} {s : ℕ} (l : List α) (k : ℕ) (hk : s * k ≤ l.length) :
    ((List.range k).map fun r => slice l (s * r) (s * (r + 1))).flatten = l.take (s * k) := by
  induction k with
  | zero => simp
  | succ k ih =>
    have h1 : s * k ≤ s * (k + 1) := Nat.mul_le_mul_left _ (Nat.le_succ k)
    rw [List.range_succ, List.map_append, List.flatten_append, ih (h1.trans hk)]
    simp only [List.map_cons, List.map_nil, List.flatten_cons, List.flatten_nil, List.append_nil]
    unfold slice
    conv_rhs => rw [← List.take_append_drop (s * k) (l.take (s * (k + 1))), List.take_take, Nat.min_eq_left h1]

theorem sum_chunks {s : ℕ} {ls : List (List ℝ)} (h : ∀ l ∈ ls, l.length = s) :
    (ls.map mean).sum = ls.flatten.sum / s ∧ ls.flatten.length = ls.length * s := by
  induction ls with
  | nil => simp
  | cons l ls ih =>
    obtain ⟨h1, h2⟩ := ih fun x hx => h x (List.mem_cons_of_mem _ hx)
    rw [List.map_cons, List.sum_cons, h1, List.flatten_cons, List.sum_append, List.length_append, h2, List.length_cons]
    unfold mean
    rw [h l (by simp)]
    exact ⟨by ring, by ring⟩

/-- The mean of means of lists of equal lengths. -/
theorem mean_chunks {s : ℕ} {ls : List (List ℝ)} (h : ∀ l ∈ ls, l.length = s) : mean (ls.map mean) = mean ls.flatten := by
  obtain ⟨h1, h2⟩ := sum_chunks h
  unfold mean at *
  rw [h1, h2, List.length_map]
  push_cast
  rw [div_div, mul_comm]

theorem mean_map_affine (a b : ℝ) {l : List ℝ} (h : l ≠ []) : mean (l.map fun x => a * x + b) = a * mean l + b := by
  have hl : (l.length : ℝ) ≠ 0 := by simpa using h
  have hs : (l.map fun x => a * x + b).sum = a * l.sum + l.length * b := by
    clear h hl
    induction l with
    | nil => simp
    | cons x l ih => rw [List.map_cons, List.sum_cons, ih, List.sum_cons, List.length_cons]; push_cast; ring
  unfold mean
  rw [hs, List.length_map]
  field_simp

theorem rangeStep_eq {b : ℕ} (hb : 0 < b) (n : ℕ) : rangeStep (n - n % b) b = (List.range (n / b)).map (· * b) := by
  unfold rangeStep
  congr 2
  have h : n - n % b = b * (n / b) := by have := Nat.div_add_mod n b; omega
  rw [h]
  rw [Nat.div_eq_of_lt_le]
  · have := Nat.mul_comm b (n / b); omega
  · rw [Nat.add_mul, Nat.mul_comm b]; omega

theorem bins_eq {α : Type} {b : ℕ} (hb : 0 < b) (points : List α) :
    bins b points = (List.range (points.length / b)).map fun r => slice points (b * r) (b * (r + 1)) := by
  unfold bins
  simp only
  rw [rangeStep_eq hb, List.map_map]
  refine List.map_congr_left fun r _ => ?_
  simp only [Function.comp, Nat.mul_comm r b, Nat.mul_add, Nat.mul_one]

theorem sortedCounts {n : ℕ} {counts : Fin n → ℕ} {order : List (Fin n)} (h : IsArgsort counts order) :
    (List.ofFn counts).mergeSort (· ≤ ·) = order.map counts := by
  refine List.Perm.eq_of_pairwise (le := (· ≤ ·)) ?_ ?_ h.2 ?_
  · intro a b _ _ h1 h2; omega
  · have := List.pairwise_mergeSort (le := fun a b : ℕ => decide (a ≤ b)) (by simp; omega) (by simp; omega) (List.ofFn counts)
    simpa using this
  · refine (List.mergeSort_perm _ _).trans ?_
    rw [List.ofFn_eq_map]
    exact (h.1.map counts).symm

theorem allPoints_eq {n : ℕ} {counts : Fin n → ℕ} {order : List (Fin n)} (h : IsArgsort counts order)
    (rates : List (Fin n → ℝ)) :
    allPoints counts rates order = order.flatMap fun c => rates.map fun y => ((counts c : ℝ), y c) := by
  unfold allPoints
  simp only
  rw [sortedCounts h, List.flatMap_def]
  congr 1
  refine List.ext_getElem (by simp) fun i h1 h2 => ?_
  simp only [List.length_map] at h2
  simp only [List.getElem_map, List.getElem_zipIdx, List.map_map]
  refine List.map_congr_left fun y _ => ?_
  simp [h2]

theorem slice_flatMap {α β : Type} {R : ℕ} {f : α → List β} (hf : ∀ a, (f a).length = R) (l : List α) (i j : ℕ) :
    slice (l.flatMap f) (R * i) (R * j) = (slice l i j).flatMap f := by
  have ht : ∀ (l : List α) j, (l.flatMap f).take (R * j) = (l.take j).flatMap f := by
    intro l j
    induction l generalizing j with
    | nil => simp
    | cons a l ih =>
      cases j with
      | zero => simp
      | succ j =>
        rw [List.flatMap_cons, List.take_append, hf, List.take_succ_cons, List.flatMap_cons, ← ih j,
          List.take_of_length_le (by rw [hf, Nat.mul_succ]; omega), Nat.mul_succ, Nat.add_sub_cancel]
  have hd : ∀ (l : List α) j, (l.flatMap f).drop (R * j) = (l.drop j).flatMap f := by
    intro l j
    induction l generalizing j with
    | nil => simp
    | cons a l ih =>
      cases j with
      | zero => simp
      | succ j =>
        rw [List.flatMap_cons, List.drop_append, hf, List.drop_succ_cons, ← ih j,
          List.drop_of_length_le (by rw [hf, Nat.mul_succ]; omega), Nat.mul_succ, Nat.add_sub_cancel, List.nil_append]
  unfold slice
  rw [ht, hd]

theorem mean_le {l : List ℝ} (h : l ≠ []) {c : ℝ} (hc : ∀ x ∈ l, x ≤ c) : mean l ≤ c := by
  have hl : (0 : ℝ) < l.length := by exact_mod_cast List.length_pos_of_ne_nil h
  unfold mean
  rw [div_le_iff₀ hl, mul_comm]
  simpa using List.sum_le_card_nsmul l c hc

theorem le_mean {l : List ℝ} (h : l ≠ []) {c : ℝ} (hc : ∀ x ∈ l, c ≤ x) : c ≤ mean l := by
  have hl : (0 : ℝ) < l.length := by exact_mod_cast List.length_pos_of_ne_nil h
  unfold mean
  rw [le_div_iff₀ hl, mul_comm]
  simpa using List.card_nsmul_le_sum l c hc

theorem slice_pairwise {α : Type} {r : α → α → Prop} {l : List α} (h : l.Pairwise r) {b i j : ℕ} (hij : i < j) :
    ∀ x ∈ slice l (b * i) (b * (i + 1)), ∀ y ∈ slice l (b * j) (b * (j + 1)), r x y := by
  intro x hx y hy
  have h1 : b * (i + 1) ≤ b * j := Nat.mul_le_mul_left _ hij
  have hx' : x ∈ l.take (b * (i + 1)) := List.mem_of_mem_drop hx
  have hy' : y ∈ l.drop (b * (i + 1)) := by
    unfold slice at hy
    rw [List.drop_take] at hy
    have := List.mem_of_mem_take hy
    rw [show b * j = b * (i + 1) + (b * j - b * (i + 1)) by omega, ← List.drop_drop] at this
    exact List.mem_of_mem_drop this
  rw [← List.take_append_drop (b * (i + 1)) l, List.pairwise_append] at h
  exact h.2.2 x hx' y hy'

theorem std_facts {l : List ℝ} (h : l ≠ []) :
    std l ^ 2 = mean (l.map (· ^ 2)) - mean l ^ 2 ∧ (std l = 0 ↔ ∀ x ∈ l, x = mean l) := by
  have hl : (0 : ℝ) < l.length := by exact_mod_cast List.length_pos_of_ne_nil h
  have h0 : 0 ≤ mean (l.map fun y => (y - mean l) ^ 2) := by
    unfold mean
    refine div_nonneg (List.sum_nonneg fun x hx => ?_) (by positivity)
    obtain ⟨y, -, rfl⟩ := List.mem_map.mp hx
    positivity
  have hs : ∀ (m : ℝ) (k : List ℝ), (k.map fun y => (y - m) ^ 2).sum = (k.map (· ^ 2)).sum - 2 * m * k.sum + k.length * m ^ 2 := by
    intro m k
    induction k with
    | nil => simp
    | cons x k ih => simp only [List.map_cons, List.sum_cons, ih, List.length_cons]; push_cast; ring
  constructor
  · unfold std
    rw [Real.sq_sqrt h0]
    have e := hs (mean l) l
    unfold mean at e ⊢
    rw [List.length_map, List.length_map, e]
    field_simp
    ring
  · unfold std
    rw [Real.sqrt_eq_zero h0]
    constructor
    · intro hz x hx
      unfold mean at hz
      rw [List.length_map, div_eq_zero_iff, or_iff_left hl.ne'] at hz
      have hle := List.single_le_sum (l := l.map fun y => (y - mean l) ^ 2) (fun y hy => by
        obtain ⟨z, -, rfl⟩ := List.mem_map.mp hy
        positivity) _ (List.mem_map_of_mem hx)
      unfold mean at hle
      rw [hz] at hle
      have := pow_eq_zero_iff (two_ne_zero) |>.mp (le_antisymm hle (sq_nonneg _))
      unfold mean
      linarith
    · intro hx
      have : (l.map fun y => (y - mean l) ^ 2) = l.map fun _ => (0 : ℝ) := List.map_congr_left fun y hy => by
        have := hx y hy
        rw [sub_eq_zero.mpr this]; norm_num
      rw [this]
      simp [mean]

end Paper

end Stoq
