import Mathlib.Algebra.BigOperators.Field
import Mathlib.Algebra.BigOperators.Intervals
import Verif.Proofs.PaperBins

/-!
# C100: runs and bins of the measured data
-/

namespace Stoq

open Paper

theorem Paper.slice_range {s r : ℕ} {l : List ℝ} (h : s * (r + 1) ≤ l.length) :
    slice l (s * r) (s * (r + 1)) = (List.range s).map fun j => l.getD (s * r + j) 0 := by
  have hlen : (slice l (s * r) (s * (r + 1))).length = s := by rw [slice_length h, Nat.mul_succ]; omega
  refine List.ext_getElem (by simpa using hlen) fun j h1 h2 => ?_
  rw [hlen] at h1
  have hj : s * r + j < l.length := by rw [Nat.mul_succ] at h; omega
  simp [slice, hj]

/-- C100: there are as many runs as fit into the shots, and run `r` is the mean of the shots from `s * r` on. -/
theorem C100_runs {s : ℕ} (hs : 0 < s) (shots : List ℝ) :
    (runProbs s shots).length = shots.length / s ∧
    (∀ r < shots.length / s, (runProbs s shots)[r]? = some ((∑ j ∈ Finset.range s, shots.getD (s * r + j) 0) / s)) ∧
    mean (runProbs s shots) = mean (shots.take (s * (shots.length / s))) := by
  have hk : ∀ r < shots.length / s, s * (r + 1) ≤ shots.length := fun r hr =>
    (Nat.mul_le_mul_left s hr).trans (Nat.mul_div_le shots.length s)
  refine ⟨by simp [runProbs], fun r hr => ?_, ?_⟩
  · have hrange : ∀ f : ℕ → ℝ, ((List.range s).map f).sum = ∑ j ∈ Finset.range s, f j := fun f => rfl
    unfold runProbs
    simp only [List.getElem?_map, List.getElem?_range hr, Option.map_some]
    rw [slice_range (hk r hr)]
    unfold mean
    rw [hrange, List.length_map, List.length_range]
  · rw [← slices_flatten shots _ (Nat.mul_div_le _ _), ← mean_chunks (s := s)]
    · unfold runProbs
      simp only [List.map_map]
      rfl
    · intro l hl
      obtain ⟨r, hr, rfl⟩ := List.mem_map.mp hl
      rw [slice_length (hk r (List.mem_range.mp hr)), Nat.mul_succ]
      omega

/-- C100: if every shot has exactly one result, the probabilities of every run add up to one. -/
theorem C100_sum_one {s N D : ℕ} (hs : 0 < s) {shots : Fin D → Fin N → ℝ} (h : ∀ j, ∑ k, shots k j = 1) {r : ℕ} (hr : r < N / s) :
    ∑ k, ((runProbs s (List.ofFn (shots k)))[r]?).getD 0 = 1 := by
  have hs' : (s : ℝ) ≠ 0 := by exact_mod_cast hs.ne'
  have e : ∀ k, ((runProbs s (List.ofFn (shots k)))[r]?).getD 0 =
      (∑ j ∈ Finset.range s, (List.ofFn (shots k)).getD (s * r + j) 0) / s := fun k => by
    rw [(C100_runs hs _).2.1 r (by simpa using hr)]
    rfl
  simp only [e]
  rw [← Finset.sum_div, Finset.sum_comm, div_eq_one_iff_eq hs']
  rw [Finset.sum_congr rfl (g := fun _ => (1 : ℝ)) fun j hj => ?_]
  · simp
  · have hj' : s * r + j < N := by
      have h1 := (Nat.mul_le_mul_left s hr).trans (Nat.mul_div_le N s)
      rw [Nat.mul_succ] at h1
      have := Finset.mem_range.mp hj
      omega
    rw [← h ⟨s * r + j, hj'⟩]
    refine Finset.sum_congr rfl fun k _ => ?_
    simp [hj']

/-- C100: the average over the runs of the success rates of a circuit is the success rate of all its shots in the runs. -/
theorem C100_rates {s : ℕ} (hs : 0 < s) {shots : List ℝ} (hl : s ≤ shots.length) (D : ℕ) (ideal : ℝ) :
    mean ((runProbs s shots).map fun p => successRate D p ideal) =
      successRate D (mean (shots.take (s * (shots.length / s)))) ideal := by
  obtain ⟨h1, -, h3⟩ := C100_runs hs shots
  have hne : runProbs s shots ≠ [] := by
    intro h0
    rw [h0, List.length_nil] at h1
    have := Nat.div_pos hl hs
    omega
  have e : ∀ p, successRate D p ideal = 1 / (ideal - 1 / D) * p + -(1 / D) / (ideal - 1 / D) := fun p => by
    unfold successRate; ring
  simp only [e]
  rw [mean_map_affine _ _ hne, h3]

/-- C100: the same for the cross-entropy fidelities, from the shots of every result. -/
theorem C100_xeb {s N D : ℕ} (hs : 0 < s) (hN : s ≤ N) {shots : Fin D → List ℝ} (h : ∀ k, (shots k).length = N) (ideal : Fin D → ℝ) :
    mean ((List.range (N / s)).map fun r => xebFidelity ideal fun k => (runProbs s (shots k)).getD r 0) =
      xebFidelity ideal fun k => mean ((shots k).take (s * (N / s))) := by
  have hK : ((N / s : ℕ) : ℝ) ≠ 0 := by exact_mod_cast (Nat.div_pos hN hs).ne'
  have hm : ∀ f : ℕ → ℝ, mean ((List.range (N / s)).map f) = (∑ r ∈ Finset.range (N / s), f r) / (N / s : ℕ) := fun f => by
    unfold mean
    rw [List.length_map, List.length_range]
    rfl
  have hk : ∀ k, mean ((shots k).take (s * (N / s))) = (∑ r ∈ Finset.range (N / s), (runProbs s (shots k)).getD r 0) / (N / s : ℕ) := by
    intro k
    obtain ⟨h1, -, h3⟩ := C100_runs hs (shots k)
    rw [h k] at h1 h3
    rw [← h3, ← hm]
    congr 1
    refine List.ext_getElem (by simp [h1]) fun r a b => ?_
    simp [a]
  have e : ∀ m : Fin D → ℝ, xebFidelity ideal m = ∑ x, ideal x * m x * ((∑ x, ideal x ^ 2 - (∑ x, ideal x) / D) /
      (∑ x, ideal x ^ 2 - (∑ x, ideal x) / D) ^ 2) - (∑ x, ideal x) / D * ((∑ x, ideal x ^ 2 - (∑ x, ideal x) / D) /
      (∑ x, ideal x ^ 2 - (∑ x, ideal x) / D) ^ 2) := fun m => by
    unfold xebFidelity
    simp only
    rw [← Finset.sum_mul]
    ring
  simp only [hm, hk, e]
  generalize (∑ x, ideal x ^ 2 - (∑ x, ideal x) / (D : ℝ)) / (∑ x, ideal x ^ 2 - (∑ x, ideal x) / (D : ℝ)) ^ 2 = A
  rw [Finset.sum_sub_distrib, Finset.sum_comm, Finset.sum_const, Finset.card_range, nsmul_eq_mul, sub_div,
    mul_div_cancel_left₀ _ hK, Finset.sum_div]
  congr 1
  refine Finset.sum_congr rfl fun x _ => ?_
  rw [← Finset.sum_mul, ← Finset.mul_sum]
  ring

/-- C100: the points are those of all circuits and runs, each with the layer count of its own circuit, in the order of the
layer counts. -/
theorem C100_points {n : ℕ} {counts : Fin n → ℕ} {order : List (Fin n)} (h : IsArgsort counts order) (rates : List (Fin n → ℝ)) :
    (allPoints counts rates order).Perm ((List.finRange n).flatMap fun c => rates.map fun y => ((counts c : ℝ), y c)) ∧
    (allPoints counts rates order).Pairwise (fun p q => p.1 ≤ q.1) ∧
    (allPoints counts rates order).length = n * rates.length := by
  rw [allPoints_eq h]
  refine ⟨h.1.flatMap_right _, ?_, ?_⟩
  · rw [List.pairwise_flatMap]
    refine ⟨fun c _ => ?_, ?_⟩
    · rw [List.pairwise_map]
      exact List.pairwise_of_forall fun _ _ => le_rfl
    · refine (List.pairwise_map.mp h.2).imp fun {c d} hcd x hx y hy => ?_
      obtain ⟨-, -, rfl⟩ := List.mem_map.mp hx
      obtain ⟨-, -, rfl⟩ := List.mem_map.mp hy
      exact Nat.cast_le.mpr hcd
  · rw [List.length_flatMap]
    simp [h.1.length_eq]

/-- C100: the bins are the points in their order, cut into as many parts of the given size as there are; less than the size
of a bin is left out at the end. -/
theorem C100_bins {α : Type} {b : ℕ} (hb : 0 < b) (points : List α) :
    (bins b points).length = points.length / b ∧ (∀ l ∈ bins b points, l.length = b) ∧
    ∃ rest, points = (bins b points).flatten ++ rest ∧ rest.length < b := by
  rw [bins_eq hb]
  refine ⟨by simp, fun l hl => ?_, points.drop (b * (points.length / b)), ?_, ?_⟩
  · obtain ⟨r, hr, rfl⟩ := List.mem_map.mp hl
    rw [slice_length ((Nat.mul_le_mul_left b (List.mem_range.mp hr)).trans (Nat.mul_div_le _ _)), Nat.mul_succ]
    omega
  · rw [slices_flatten _ _ (Nat.mul_div_le _ _), List.take_append_drop]
  · rw [List.length_drop]
    have := Nat.div_add_mod points.length b
    have := Nat.mod_lt points.length hb
    omega

/-- C100: with `q` times the number of runs as the size of a bin, every bin holds all runs of `q` circuits, so that no
circuit is in two bins, and the `n % q` circuits with the largest layer counts are in none. -/
theorem C100_whole {n q : ℕ} (hq : 0 < q) {counts : Fin n → ℕ} {order : List (Fin n)} (h : IsArgsort counts order)
    {rates : List (Fin n → ℝ)} (hr : rates ≠ []) :
    ∃ (groups : List (List (Fin n))) (rest : List (Fin n)), order = groups.flatten ++ rest ∧ groups.length = n / q ∧ (∀ g ∈ groups, g.length = q) ∧ rest.length = n % q ∧
      (∀ c ∈ groups.flatten, ∀ d ∈ rest, counts c ≤ counts d) ∧
      bins (rates.length * q) (allPoints counts rates order) =
        groups.map fun g => g.flatMap fun c => rates.map fun y => ((counts c : ℝ), y c) := by
  have hR : 0 < rates.length := List.length_pos_of_ne_nil hr
  have hn : order.length = n := by simpa using h.1.length_eq
  have hk : q * (n / q) ≤ order.length := by rw [hn]; exact Nat.mul_div_le _ _
  refine ⟨(List.range (n / q)).map fun r => slice order (q * r) (q * (r + 1)), order.drop (q * (n / q)), ?_, by simp, ?_, ?_, ?_, ?_⟩
  · rw [slices_flatten _ _ hk, List.take_append_drop]
  · intro g hg
    obtain ⟨r, hr, rfl⟩ := List.mem_map.mp hg
    rw [slice_length ((Nat.mul_le_mul_left q (List.mem_range.mp hr)).trans hk), Nat.mul_succ]
    omega
  · rw [List.length_drop, hn]
    have := Nat.div_add_mod n q
    omega
  · rw [slices_flatten _ _ hk]
    have hp := List.pairwise_map.mp h.2
    rw [← List.take_append_drop (q * (n / q)) order, List.pairwise_append] at hp
    exact hp.2.2
  · rw [bins_eq (Nat.mul_pos hR hq), allPoints_eq h, List.length_flatMap]
    simp only [List.length_map, List.map_const', List.sum_replicate, smul_eq_mul, hn]
    rw [Nat.mul_comm n, Nat.mul_div_mul_left _ _ hR, List.map_map]
    refine List.map_congr_left fun r _ => ?_
    simp only [Function.comp, Nat.mul_assoc]
    exact slice_flatMap (fun c => by simp) order _ _

/-- C100: the positions of the bins increase with the layer counts, each within those of its points; the average of the
heights of the bins is that of the points in the bins. -/
theorem C100_heights {b : ℕ} (hb : 0 < b) {points : List (ℝ × ℝ)} (h : points.Pairwise fun p q => p.1 ≤ q.1) :
    (xBin b points).Pairwise (· ≤ ·) ∧ mean (yBin b points) = mean ((bins b points).flatten.map Prod.snd) ∧
    ∀ l ∈ bins b points, ∀ lo hi : ℝ × ℝ, l.head? = some lo → l.getLast? = some hi →
      lo.1 ≤ mean (l.map Prod.fst) ∧ mean (l.map Prod.fst) ≤ hi.1 := by
  obtain ⟨-, hlen, -⟩ := C100_bins hb points
  have hne : ∀ l ∈ bins b points, l ≠ [] := fun l hl h0 => by
    have := hlen l hl
    rw [h0] at this
    simp at this
    omega
  refine ⟨?_, ?_, ?_⟩
  · unfold xBin
    rw [List.pairwise_map, bins_eq hb, List.pairwise_map]
    refine List.Pairwise.imp_of_mem (fun {i j} hi hj hij => ?_) (List.pairwise_lt_range)
    have key := slice_pairwise h (b := b) hij
    have mem : ∀ r ∈ List.range (points.length / b), slice points (b * r) (b * (r + 1)) ∈ bins b points := fun r hr => by
      rw [bins_eq hb]; exact List.mem_map_of_mem hr
    refine mean_le (by simpa using hne _ (mem i hi)) fun x hx => le_mean (by simpa using hne _ (mem j hj)) fun y hy => ?_
    obtain ⟨p, hp, rfl⟩ := List.mem_map.mp hx
    obtain ⟨q, hq, rfl⟩ := List.mem_map.mp hy
    exact key p hp q hq
  · unfold yBin
    rw [List.map_flatten, ← mean_chunks (s := b), List.map_map]
    · rfl
    · intro l hl
      obtain ⟨l', hl', rfl⟩ := List.mem_map.mp hl
      simpa using hlen l' hl'
  · intro l hl lo hi hlo hhi
    have hp : l.Pairwise fun p q => p.1 ≤ q.1 := by
      rw [bins_eq hb] at hl
      obtain ⟨r, -, rfl⟩ := List.mem_map.mp hl
      exact (h.sublist (List.take_sublist _ _)).sublist (List.drop_sublist _ _)
    have hl0 : l.map Prod.fst ≠ [] := by simpa using hne l hl
    constructor
    · refine le_mean hl0 fun x hx => ?_
      obtain ⟨p, hpl, rfl⟩ := List.mem_map.mp hx
      obtain ⟨l', rfl⟩ : ∃ l', l = lo :: l' := by
        cases l with
        | nil => cases hlo
        | cons a l' => cases hlo; exact ⟨l', rfl⟩
      rcases List.mem_cons.mp hpl with rfl | hpl
      · exact le_rfl
      · exact (List.pairwise_cons.mp hp).1 p hpl
    · refine mean_le hl0 fun x hx => ?_
      obtain ⟨p, hpl, rfl⟩ := List.mem_map.mp hx
      obtain ⟨l', rfl⟩ := List.getLast?_eq_some_iff.mp hhi
      rw [List.pairwise_append] at hp
      rcases List.mem_append.mp hpl with hpl | hpl
      · exact hp.2.2 p hpl hi (by simp)
      · rw [List.mem_singleton.mp hpl]

/-- C100: the squared error bar of a bin is the variance of its points divided by their number; so the notebooks divide by
zero, in the sums of squares, exactly if all points of some bin have the same height. -/
theorem C100_errors {b : ℕ} (hb : 0 < b) (points : List (ℝ × ℝ)) :
    List.Forall₂ (fun (e : ℝ) (l : List (ℝ × ℝ)) => 0 ≤ e ∧
      e ^ 2 * b = (l.map fun p : ℝ × ℝ => p.2 ^ 2).sum / b - ((l.map Prod.snd).sum / b) ^ 2 ∧
      (e = 0 ↔ ∀ p ∈ l, ∀ p' ∈ l, p.2 = p'.2)) (yBinStderr b points) (bins b points) := by
  obtain ⟨-, hlen, -⟩ := C100_bins hb points
  unfold yBinStderr
  rw [List.forall₂_map_left_iff]
  refine List.forall₂_same.mpr fun l hl => ?_
  have hl' := hlen l hl
  have hb' : (0 : ℝ) < b := by exact_mod_cast hb
  have hne : l.map Prod.snd ≠ [] := by
    intro h0
    rw [List.map_eq_nil_iff] at h0
    rw [h0] at hl'
    simp at hl'
    omega
  obtain ⟨h1, h2⟩ := std_facts hne
  refine ⟨by unfold std; positivity, ?_, ?_⟩
  · rw [div_pow, Real.sq_sqrt hb'.le, div_mul_cancel₀ _ hb'.ne', h1]
    unfold mean
    simp [hl', List.map_map, Function.comp_def]
  · rw [div_eq_zero_iff, or_iff_left (Real.sqrt_ne_zero'.mpr hb'), h2]
    constructor
    · intro hx p hp p' hp'
      rw [hx _ (List.mem_map_of_mem hp), hx _ (List.mem_map_of_mem hp')]
    · intro hx x hx'
      obtain ⟨p, hp, rfl⟩ := List.mem_map.mp hx'
      exact le_antisymm (le_mean hne fun y hy => by
          obtain ⟨q, hq, rfl⟩ := List.mem_map.mp hy
          exact (hx p hp q hq).le)
        (mean_le hne fun y hy => by
          obtain ⟨q, hq, rfl⟩ := List.mem_map.mp hy
          exact (hx q hq p hp).le)

/-! ## Examples -/

/-- C100: five shots in runs of two; the last shot is in no run. -/
example : runProbs 2 [1, 0, 1, 1, 0] = [1 / 2, 1] ∧ mean (runProbs 2 [1, 0, 1, 1, 0]) = 3 / 4 := by
  constructor
  · norm_num [runProbs, slice, mean, List.range_succ]
  · rw [(C100_runs (by norm_num) _).2.2]
    norm_num [mean]

/-- C100: every shot of one qubit is 0 or 1. -/
example : ∑ k, ((runProbs 25 (List.ofFn fun j : Fin 500 => if (j : ℕ) % 2 = (k : Fin 2) then (1 : ℝ) else 0))[3]?).getD 0 = 1 :=
  C100_sum_one (by norm_num) (shots := fun k j => if (j : ℕ) % 2 = (k : Fin 2) then (1 : ℝ) else 0) (fun j => by
    rw [Fin.sum_univ_two]
    rcases Nat.mod_two_eq_zero_or_one j with h | h <;> simp [h]) (by norm_num)

/-- Three circuits of 5, 2 and 2 layers: two orders are possible. -/
example : IsArgsort ![5, 2, 2] [1, 2, 0] ∧ IsArgsort ![5, 2, 2] [2, 1, 0] ∧ ¬ IsArgsort ![5, 2, 2] [0, 1, 2] := by
  unfold IsArgsort
  decide

/-- C100: in the notebook with 50 circuits and 20 runs there are 8 bins, and two circuits are in none. -/
example {counts : Fin 50 → ℕ} {order : List (Fin 50)} (h : IsArgsort counts order) {rates : List (Fin 50 → ℝ)}
    (hr : rates.length = 20) : (bins (20 * 6) (allPoints counts rates order)).length = 8 ∧
      ∃ c d : Fin 50, c ≠ d ∧ ∀ l ∈ bins (20 * 6) (allPoints counts rates order), ∃ g : List (Fin 50), c ∉ g ∧ d ∉ g ∧
        l = g.flatMap fun e => rates.map fun y => ((counts e : ℝ), y e) := by
  obtain ⟨groups, rest, h1, h2, -, h4, -, h6⟩ := C100_whole (q := 6) (by norm_num) h (rates := rates) (by
    intro h0; rw [h0] at hr; cases hr)
  rw [hr] at h6
  rw [h6]
  refine ⟨by rw [List.length_map, h2], ?_⟩
  obtain ⟨c, d, rfl⟩ := List.length_eq_two.mp h4
  have hnd : order.Nodup := h.1.nodup_iff.mpr (List.nodup_finRange 50)
  rw [h1, List.nodup_append] at hnd
  obtain ⟨-, n2, n3⟩ := hnd
  refine ⟨c, d, by simpa using n2, fun l hl => ?_⟩
  obtain ⟨g, hg, rfl⟩ := List.mem_map.mp hl
  exact ⟨g, fun hc => n3 c (List.mem_flatten.mpr ⟨g, hg, hc⟩) c (by simp) rfl,
    fun hd => n3 d (List.mem_flatten.mpr ⟨g, hg, hd⟩) d (by simp) rfl, rfl⟩

/-- C100: the positions of the bins of the notebook's points increase. -/
example {counts : Fin 50 → ℕ} {order : List (Fin 50)} (h : IsArgsort counts order) (rates : List (Fin 50 → ℝ)) :
    (xBin 120 (allPoints counts rates order)).Pairwise (· ≤ ·) :=
  (C100_heights (by norm_num) (C100_points h rates).2.1).1

/-- C100: two bins of two points. -/
example : xBin 2 [(1, 5), (1, 7), (2, 1), (4, 1), (9, 0)] = [1, 3] ∧ yBin 2 [(1, 5), (1, 7), (2, 1), (4, 1), (9, 0)] = [6, 1] := by
  constructor <;> norm_num [xBin, yBin, bins, rangeStep, slice, mean, List.range_succ]

end Stoq
