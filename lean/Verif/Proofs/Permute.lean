import Mathlib.Data.List.NodupEquivFin
import Mathlib.Data.List.Perm.Lattice
import Verif.Model.Entry
import Verif.Proofs.Bits
import Verif.Proofs.Py

/-! The index permutation computed by `get_permute_matrix`. -/

namespace Stoq

/-- Repeated item assignment at pairwise different positions. -/
theorem foldl_set_getElem? {α β : Type*} (f : β → ℕ) (g : β → α) (l : List β) (init : List α)
    (hnd : (l.map f).Nodup) (p : ℕ) :
    (l.foldl (fun row b => row.set (f b) (g b)) init)[p]? =
      match l.find? (fun b => f b == p) with
      | some b => if p < init.length then some (g b) else none
      | none => init[p]? := by
  induction l generalizing init with
  | nil => simp
  | cons b l ih =>
    rw [List.map_cons, List.nodup_cons] at hnd
    rw [List.foldl_cons, ih _ hnd.2, List.find?_cons]
    by_cases hb : f b = p
    · have : l.find? (fun b => f b == p) = none := by
        rw [List.find?_eq_none]
        intro x hx hxp
        exact hnd.1 (hb ▸ (beq_iff_eq.mp hxp) ▸ List.mem_map_of_mem hx)
      rw [this]
      simp [hb, List.getElem?_set]
    · have hb' : (f b == p) = false := by simpa using hb
      simp only [hb', List.length_set]
      rcases l.find? (fun b => f b == p) with _ | x
      · simp [hb]
      · rfl

theorem foldl_set_length {α β : Type*} (f : β → ℕ) (g : β → α) (l : List β) (init : List α) :
    (l.foldl (fun row b => row.set (f b) (g b)) init).length = init.length := by
  induction l generalizing init with
  | nil => rfl
  | cons b l ih => rw [List.foldl_cons, ih, List.length_set]

namespace EntryVal

variable {n : ℕ} {a : List ℕ}

theorem orderApplied_eq (hnd : a.Nodup) :
    orderApplied n a = (List.range n).map fun p => if p ∈ a then some (a.idxOf p) else none := by
  unfold orderApplied
  apply List.ext_getElem?
  intro p
  rw [foldl_set_getElem? (fun ak : ℕ × ℕ => ak.1) (fun ak => some ak.2) _ _ (by
    rw [List.zipIdx_map_fst]; exact hnd)]
  by_cases hpn : p < n
  · by_cases hp : p ∈ a
    · have hlt := List.idxOf_lt_length_of_mem hp
      have hf : a.zipIdx.find? (fun b => b.1 == p) = some (p, a.idxOf p) := by
        rw [List.find?_eq_some_iff_getElem]
        refine ⟨by simp, a.idxOf p, by simpa using hlt, by simp, ?_⟩
        intro j hj
        simp only [List.getElem_zipIdx, Bool.not_eq_true', beq_eq_false_iff_ne, ne_eq]
        intro h
        have h2 : a[a.idxOf p] = p := by simp
        have := (hnd.getElem_inj_iff (hi := by omega) (hj := hlt)).mp (h.trans h2.symm)
        omega
      simp [hf, hpn, hp]
    · have hf : a.zipIdx.find? (fun b => b.1 == p) = none := by
        rw [List.find?_eq_none]
        rintro ⟨x, k⟩ hx hxp
        exact hp ((beq_iff_eq.mp hxp) ▸ List.fst_mem_of_mem_zipIdx hx)
      simp [hf, hpn, hp]
  · split <;> simp [hpn]

theorem orderFill_getElem? (l : List (Option ℕ)) (next p : ℕ) :
    (orderFill l next)[p]? = l[p]?.map fun o => o.getD (next + (l.take p).count none) := by
  induction l generalizing next p with
  | nil => simp [orderFill]
  | cons o l ih =>
    cases o with
    | none =>
      cases p with
      | zero => simp [orderFill]
      | succ p =>
        simp only [orderFill, List.getElem?_cons_succ, ih, List.take_succ_cons, List.count_cons_self]
        congr 1; funext o; congr 1; omega
    | some k =>
      cases p with
      | zero => simp [orderFill]
      | succ p =>
        simp only [orderFill, List.getElem?_cons_succ, ih, List.take_succ_cons]
        congr 1

theorem orderFill_length (l : List (Option ℕ)) (next : ℕ) : (orderFill l next).length = l.length := by
  induction l generalizing next with
  | nil => rfl
  | cons o l ih => cases o <;> simp [orderFill, ih]

theorem orderFill_perm (l : List (Option ℕ)) (next : ℕ) :
    (orderFill l next).Perm (l.filterMap id ++ List.range' next (l.count none)) := by
  induction l generalizing next with
  | nil => simp [orderFill]
  | cons o l ih =>
    cases o with
    | none =>
      simp only [orderFill, List.filterMap_cons, id_eq, List.count_cons_self]
      rw [List.range'_succ]
      exact ((ih (next + 1)).cons next).trans List.perm_middle.symm
    | some k =>
      simp only [orderFill, List.filterMap_cons, id_eq, List.cons_append]
      have : (some k :: l).count none = l.count none := by simp
      rw [this]
      exact (ih next).cons k

/-- Position given to qubit `p`. -/
theorem permuteOrder_getElem? (hnd : a.Nodup) {p : ℕ} (hp : p < n) :
    (permuteOrder n a)[p]? = some (if p ∈ a then a.idxOf p else
      a.length + ((List.range p).filter fun q => q ∉ a).length) := by
  unfold permuteOrder
  rw [orderFill_getElem?, orderApplied_eq hnd]
  simp only [List.getElem?_map, List.getElem?_range hp, Option.map_some, Option.some.injEq]
  by_cases h : p ∈ a
  · simp [h]
  · simp only [h, if_false, Option.getD_none]
    congr 1
    rw [← List.map_take, List.take_range, Nat.min_eq_left hp.le, List.count, List.countP_map,
      List.countP_eq_length_filter]
    congr 1
    apply List.filter_congr
    intro q _
    by_cases hq : q ∈ a <;> simp [hq]

theorem permuteOrder_length (hnd : a.Nodup) : (permuteOrder n a).length = n := by
  rw [permuteOrder, orderFill_length, orderApplied_eq hnd]; simp

theorem filter_range_perm (hnd : a.Nodup) (hlt : ∀ q ∈ a, q < n) :
    ((List.range n).filter (· ∈ a)).Perm a := by
  rw [List.perm_ext_iff_of_nodup (List.nodup_range.filter _) hnd]
  intro q
  simp only [List.mem_filter, List.mem_range, decide_eq_true_eq]
  exact ⟨fun h => h.2, fun h => ⟨hlt q h, h⟩⟩

theorem map_idxOf_self (hnd : a.Nodup) : a.map a.idxOf = List.range a.length := by
  apply List.ext_getElem (by simp)
  intro i h1 h2
  simp only [List.getElem_map, List.getElem_range]
  exact hnd.idxOf_getElem i (by simpa using h1)

theorem length_le (hnd : a.Nodup) (hlt : ∀ q ∈ a, q < n) : a.length ≤ n := by
  have h := (filter_range_perm hnd hlt).length_eq
  have := List.length_filter_le (· ∈ a) (List.range n)
  simp only [List.length_range] at this
  omega

theorem permuteOrder_perm (hnd : a.Nodup) (hlt : ∀ q ∈ a, q < n) :
    (permuteOrder n a).Perm (List.range n) := by
  have hle := length_le hnd hlt
  refine (orderFill_perm _ _).trans ?_
  rw [orderApplied_eq hnd]
  have h1 : (((List.range n).map fun p => if p ∈ a then some (a.idxOf p) else none).filterMap id).Perm
      (List.range a.length) := by
    rw [List.filterMap_map]
    have : (List.range n).filterMap (id ∘ fun p => if p ∈ a then some (a.idxOf p) else none)
        = ((List.range n).filter (· ∈ a)).map a.idxOf := by
      rw [← List.filterMap_eq_map, List.filterMap_filter]
      congr 1
      funext p
      by_cases hp : p ∈ a <;> simp [hp]
    rw [this, ← map_idxOf_self hnd]
    exact (filter_range_perm hnd hlt).map _
  have h2 : ((List.range n).map fun p => if p ∈ a then some (a.idxOf p) else none).count none
      = n - a.length := by
    rw [List.count, List.countP_map]
    have hc := List.length_eq_countP_add_countP (fun q => decide (q ∈ a)) (l := List.range n)
    have h3 := (filter_range_perm hnd hlt).length_eq
    rw [← List.countP_eq_length_filter] at h3
    rw [List.length_range] at hc
    have : List.countP ((fun x => x == none) ∘ fun p => if p ∈ a then some (a.idxOf p) else none) (List.range n)
        = List.countP (fun q => decide ¬ decide (q ∈ a) = true) (List.range n) := by
      apply List.countP_congr
      intro q _
      by_cases hq : q ∈ a <;> simp [hq]
    omega
  rw [h2]
  refine (h1.append_right _).trans ?_
  rw [List.range_eq_range', List.range_eq_range']
  have := List.range'_append_1 (s := 0) (m := a.length) (n := n - a.length)
  rw [Nat.zero_add] at this
  rw [this, Nat.add_sub_cancel' hle]

theorem permuteOrder_nodup (hnd : a.Nodup) (hlt : ∀ q ∈ a, q < n) : (permuteOrder n a).Nodup :=
  (permuteOrder_perm hnd hlt).nodup_iff.mpr List.nodup_range

/-- `_select` writes bit `k` of the counter at position `sel[k]`. -/
theorem selectRow_getElem? {sel : List ℕ} (hp : sel.Perm (List.range n)) (c : ℕ) {p : ℕ} (hpn : p < n) :
    (selectRow sel (List.replicate n 2) c)[p]? = some (qubit n (sel.idxOf p) c + 1) := by
  have hnd : sel.Nodup := hp.nodup_iff.mpr List.nodup_range
  have hlen : sel.length = n := by simpa using hp.length_eq
  have hmem : p ∈ sel := hp.mem_iff.mpr (List.mem_range.mpr hpn)
  have hidx : sel.idxOf p < sel.length := List.idxOf_lt_length_of_mem hmem
  have hmap : (List.range sel.length).map (fun k => sel.getD k 0) = sel := by
    apply List.ext_getElem (by simp)
    intro i h1 h2
    simp [h2]
  unfold selectRow
  rw [foldl_set_getElem? (fun k => sel.getD k 0) _ _ _ (by rw [hmap]; exact hnd)]
  have hf : (List.range sel.length).find? (fun k => sel.getD k 0 == p) = some (sel.idxOf p) := by
    rw [List.find?_eq_some_iff_getElem]
    refine ⟨by simp [hidx], sel.idxOf p, by simpa using hidx, by simp, ?_⟩
    intro j hj
    have hj' : j < sel.length := by omega
    simp only [List.getElem_range, List.getD_eq_getElem?_getD, List.getElem?_eq_getElem hj',
      Option.getD_some, Bool.not_eq_true', beq_eq_false_iff_ne, ne_eq]
    intro h
    have h2 : sel[sel.idxOf p] = p := by simp
    have := (hnd.getElem_inj_iff (hi := hj') (hj := hidx)).mp (h.trans h2.symm)
    omega
  rw [hf]
  simp only [List.length_replicate, hpn, if_true, Option.some.injEq, Nat.add_right_cancel_iff]
  have h2 : sel.getD (sel.idxOf p) 0 = p := by simp [hidx]
  have h3 : ((sel.drop (sel.idxOf p + 1)).map fun q => (List.replicate n 2).getD q 0)
      = List.replicate (n - 1 - sel.idxOf p) 2 := by
    rw [List.eq_replicate_iff]
    refine ⟨by simp; omega, ?_⟩
    intro b hb
    obtain ⟨q, hq, rfl⟩ := List.mem_map.mp hb
    have : q < n := List.mem_range.mp (hp.mem_iff.mp (List.mem_of_mem_drop hq))
    simp [this]
  rw [h2, h3, List.prod_replicate]
  simp [qubit, hpn]

theorem selectRow_length (sel : List ℕ) (c : ℕ) :
    (selectRow sel (List.replicate n 2) c).length = n := by
  rw [selectRow, foldl_set_length (fun k => sel.getD k 0)]; simp

theorem cumprod_replicate (x s k : ℕ) :
    ((List.replicate k x).scanl (· * ·) s) = (List.range (k + 1)).map fun i => s * x ^ i := by
  induction k generalizing s with
  | zero => simp
  | succ k ih =>
    rw [List.replicate_succ, List.scanl_cons, ih, List.range_succ_eq_map (n := k + 1)]
    simp [Function.comp_def, pow_succ', Nat.mul_assoc]

theorem fact_eq (n : ℕ) : 1 :: cumprod ((List.replicate (n + 1) 2).reverse.dropLast)
    = (List.range (n + 1)).map (2 ^ ·) := by
  have : (List.replicate (n + 1) 2).reverse.dropLast = List.replicate n 2 := by simp
  rw [this, cumprod, cumprod_replicate, List.range_succ_eq_map]
  simp [Function.comp_def]

/-- Dot product of the reversed bits with the powers of two. -/
theorem dot_rev (l : List ℕ) :
    (List.zipWith (· * ·) l.reverse ((List.range l.length).map (2 ^ ·))).sum
      = num l.length fun p => l.getD p 0 := by
  have key : ∀ (l : List ℕ) (b : ℕ → ℕ), (∀ i (h : i < l.length), l[i] = b (l.length - 1 - i)) →
      (List.zipWith (· * ·) l ((List.range l.length).map (2 ^ ·))).sum = num l.length b := by
    intro l
    induction l with
    | nil => intro b _; rfl
    | cons x l ih =>
      intro b hb
      rw [List.length_cons, List.range_succ_eq_map, List.map_cons, List.zipWith_cons_cons, List.sum_cons,
        List.map_map]
      have h2 : List.zipWith (· * ·) l ((List.range l.length).map ((2 ^ ·) ∘ Nat.succ))
          = (List.zipWith (· * ·) l ((List.range l.length).map (2 ^ ·))).map (2 * ·) := by
        apply List.ext_getElem (by simp)
        intro i h1 h2
        simp [pow_succ]; ring
      rw [h2, List.sum_map_mul_left, List.map_id']
      rw [ih b ?_]
      · simp only [num]
        have := hb 0 (by simp)
        simp at this
        rw [this]; simp; omega
      · intro i hi
        have := hb (i + 1) (by simp; omega)
        simp only [List.getElem_cons_succ, List.length_cons] at this
        rw [this]; congr 1; omega
  have := key l.reverse (fun p => l.getD p 0) (by
    intro i hi
    simp only [List.length_reverse] at hi
    simp only [List.getElem_reverse, List.length_reverse]
    have : l.length - 1 - i < l.length := by omega
    simp [this])
  simpa using this

theorem permInd_eq {order : List ℕ} (hp : order.Perm (List.range n)) (c : ℕ) :
    permInd (List.replicate n 2) order c = num n fun p => qubit n (order.idxOf p) c := by
  unfold permInd
  cases n with
  | zero =>
    have : selectRow order (List.replicate 0 2) c = [] := List.eq_nil_of_length_eq_zero (selectRow_length ..)
    rw [this]; simp [num]
  | succ n =>
    simp only [fact_eq]
    set row := (selectRow order (List.replicate (n + 1) 2) c).map (· - 1) with hrow
    have hlen : row.length = n + 1 := by simp [hrow, selectRow_length]
    have := dot_rev row
    rw [hlen] at this
    rw [← List.map_reverse, ← hrow] at *
    rw [this]
    refine num_congr fun p hp' => ?_
    rw [hrow, List.getD_eq_getElem?_getD, List.getElem?_map, selectRow_getElem? hp c hp']
    simp

theorem permInds_eq {order : List ℕ} (hp : order.Perm (List.range n)) :
    permInds (List.replicate n 2) order =
      .ok ((List.range (2 ^ n)).map fun c => num n fun p => qubit n (order.idxOf p) c) := by
  unfold permInds
  have hsort : order.mergeSort = List.range n := by
    apply List.Perm.eq_of_pairwise (le := fun a b : ℕ => a ≤ b)
    · intro a b _ _ h1 h2; omega
    · exact (List.pairwise_mergeSort (le := fun a b : ℕ => decide (a ≤ b))
        (by intro a b c; simp; omega) (by intro a b; simp; omega) order).imp (by simp)
    · exact List.pairwise_lt_range.imp (fun h => Nat.le_of_lt h)
    · exact (List.mergeSort_perm order _).trans hp
  rw [assertE_of (by simpa using hsort), ok_bind]
  have hprod : (order.map fun q => (List.replicate n 2).getD q 0).prod = 2 ^ n := by
    have : (order.map fun q => (List.replicate n 2).getD q 0) = List.replicate n 2 := by
      rw [List.eq_replicate_iff]
      refine ⟨by simpa using hp.length_eq, ?_⟩
      intro b hb
      obtain ⟨q, hq, rfl⟩ := List.mem_map.mp hb
      have : q < n := List.mem_range.mp (hp.mem_iff.mp hq)
      simp [this]
    rw [this, List.prod_replicate]
  simp only [hprod, pure_except]
  congr 1
  exact List.map_congr_left fun c _ => permInd_eq hp c

end EntryVal

end Stoq
