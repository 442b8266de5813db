import Verif.Model.Rng
import Verif.Proofs.Py
import Verif.Proofs.Heap
import Mathlib.Data.List.OfFn
import Mathlib.Data.List.FinRange
import Mathlib.Logic.Equiv.Basic
import Mathlib.Algebra.BigOperators.Group.List.Basic
import Mathlib.Algebra.Order.BigOperators.Group.List
import Mathlib.Tactic.Linarith
import Mathlib.Tactic.Positivity
import Mathlib.Tactic.FieldSimp

/-! # Random choices -/

namespace Stoq

namespace Rng

/-! ## Inverting the cumulative distribution -/

/-- Running sums starting from `a`, without `a` itself. -/
def running (a : ℝ) (p : List ℝ) : List ℝ := (p.scanl (· + ·) a).tail

theorem running_cons (a x : ℝ) (p : List ℝ) : running a (x :: p) = (a + x) :: running (a + x) p := by
  unfold running
  rw [List.scanl_cons]
  cases p <;> simp [List.scanl_cons]

theorem le_running {a : ℝ} {p : List ℝ} (hp : ∀ x ∈ p, 0 ≤ x) : ∀ y ∈ running a p, a ≤ y := by
  induction p generalizing a with
  | nil => simp [running]
  | cons x p ih =>
    intro y hy
    have hx := hp x List.mem_cons_self
    rw [running_cons, List.mem_cons] at hy
    rcases hy with rfl | hy
    · linarith
    · have := ih (fun z hz => hp z (List.mem_cons_of_mem _ hz)) y hy
      linarith

theorem running_count {a y : ℝ} {p : List ℝ} (hp : ∀ x ∈ p, 0 ≤ x) (ha : a ≤ y) (hy : y < a + p.sum)
    {i : ℕ} (hi : ((running a p).filter (fun x => open Classical in decide (x ≤ y))).length = i) :
    i < p.length ∧ a + (p.take i).sum ≤ y ∧ y < a + (p.take (i + 1)).sum := by
  induction p generalizing a i with
  | nil => simp at hy; linarith
  | cons x p ih =>
    have hp' : ∀ z ∈ p, 0 ≤ z := fun z hz => hp z (List.mem_cons_of_mem _ hz)
    rw [running_cons] at hi
    by_cases hx : a + x ≤ y
    · rw [List.filter_cons_of_pos (by simpa using hx), List.length_cons] at hi
      subst hi
      obtain ⟨h1, h2, h3⟩ := ih hp' hx (by rw [List.sum_cons] at hy; linarith) rfl
      refine ⟨by simp; omega, ?_, ?_⟩
      · rw [List.take_succ_cons, List.sum_cons]; linarith
      · rw [List.take_succ_cons, List.sum_cons]; linarith
    · rw [List.filter_cons_of_neg (by simpa using hx)] at hi
      have hnil : (running (a + x) p).filter (fun x => open Classical in decide (x ≤ y)) = [] := by
        rw [List.filter_eq_nil_iff]
        intro z hz
        have := le_running hp' z hz
        simp only [decide_eq_true_eq, not_le]
        push Not at hx
        linarith
      rw [hnil] at hi
      simp at hi
      subst hi
      push Not at hx
      refine ⟨by simp, by simpa using ha, by simpa using hx⟩

/-- The conditions under which `np.random.choice(a, p=p)` accepts its arguments. -/
structure ValidP (n : ℕ) (p : List ℝ) : Prop where
  pos : 0 < n
  len : p.length = n
  nonneg : ∀ x ∈ p, 0 ≤ x
  sum : |p.sum - 1| ≤ 1 / 2 ^ 26

theorem ValidP.sum_pos {n : ℕ} {p : List ℝ} (h : ValidP n p) : 0 < p.sum := by
  have := (abs_le.mp h.sum).1
  norm_num at this
  linarith

theorem choiceP_eq {n : ℕ} {p : List ℝ} (h : ValidP n p) (r : Rng) :
    choiceP n p r = (.ok (searchsortedRight ((cumsum p).map (· / p.sum)) (r.unif r.upos)),
      { r with upos := r.upos + 1 }) := by
  unfold choiceP
  rw [raiseUnless_of h.pos, raiseUnless_of h.len, raiseUnless_of h.nonneg, raiseUnless_of h.sum]
  rfl

theorem choiceP_invalid {n : ℕ} {p : List ℝ} (h : ¬ ValidP n p) (r : Rng) :
    choiceP n p r = (.error .valueError, r) := by
  unfold choiceP
  by_cases h1 : n > 0
  · rw [raiseUnless_of h1]
    by_cases h2 : p.length = n
    · rw [raiseUnless_of h2]
      by_cases h3 : ∀ x ∈ p, 0 ≤ x
      · rw [raiseUnless_of h3]
        by_cases h4 : |p.sum - 1| ≤ 1 / 2 ^ 26
        · exact absurd ⟨h1, h2, h3, h4⟩ h
        · rw [raiseUnless_of_not h4]; rfl
      · rw [raiseUnless_of_not h3]; rfl
    · rw [raiseUnless_of_not h2]; rfl
  · rw [raiseUnless_of_not h1]; rfl

/-- Index `i` is chosen exactly when the uniform draw falls into its interval. -/
theorem search_spec {n : ℕ} {p : List ℝ} (h : ValidP n p) (u : Set.Ico (0 : ℝ) 1) {i : ℕ}
    (hi : searchsortedRight ((cumsum p).map (· / p.sum)) u = i) :
    i < n ∧ (p.take i).sum ≤ u * p.sum ∧ u * p.sum < (p.take (i + 1)).sum := by
  have hS := h.sum_pos
  have hu := u.2
  have e : searchsortedRight ((cumsum p).map (· / p.sum)) u =
      ((running 0 p).filter (fun x => open Classical in decide (x ≤ u * p.sum))).length := by
    unfold searchsortedRight
    rw [List.filter_map, List.length_map]
    refine congrArg List.length (List.filter_congr fun x _ => ?_)
    simp only [Function.comp, decide_eq_decide]
    exact div_le_iff₀ hS
  rw [e] at hi
  have := running_count h.nonneg (a := 0) (y := u * p.sum) (mul_nonneg hu.1 hS.le)
    (by have := mul_lt_mul_of_pos_right hu.2 hS; linarith) hi
  rw [h.len] at this
  simpa using this

/-- The chosen index has positive probability. -/
theorem search_pos {n : ℕ} {p : List ℝ} (h : ValidP n p) (u : Set.Ico (0 : ℝ) 1) {i : ℕ}
    (hi : searchsortedRight ((cumsum p).map (· / p.sum)) u = i) : ∃ hlt : i < p.length, 0 < p[i] := by
  obtain ⟨h1, h2, h3⟩ := search_spec h u hi
  rw [← h.len] at h1
  refine ⟨h1, ?_⟩
  rw [List.take_succ_eq_append_getElem h1, List.sum_append] at h3
  simp at h3
  linarith

/-! ## Shuffling -/

theorem randBelow_eq (n : ℕ) (r : Rng) :
    randBelow n r = (.ok (r.nat r.npos % n), { r with npos := r.npos + 1 }) := rfl

theorem randomSample_eq (r : Rng) :
    randomSample r = (.ok (r.unif r.upos), { r with upos := r.upos + 1 }) := rfl

theorem swapAt_map {α β : Type} (f : α → β) (l : List α) (i j : ℕ) : swapAt (l.map f) i j = (swapAt l i j).map f := by
  unfold swapAt
  rw [List.getElem?_map, List.getElem?_map]
  rcases l[i]? with _ | a <;> rcases l[j]? with _ | b <;> simp

theorem shuffleFrom_map {α β : Type} (f : α → β) (i : ℕ) (l : List α) (r : Rng) :
    shuffleFrom i (l.map f) r = ((shuffleFrom i l r).1.map (List.map f), (shuffleFrom i l r).2) := by
  induction i generalizing l r with
  | zero => rfl
  | succ i ih =>
    unfold shuffleFrom
    rw [PyM.bind_of_ok (randBelow_eq _ r), PyM.bind_of_ok (randBelow_eq _ r), swapAt_map, ih]

theorem shuffle_map {α β : Type} (f : α → β) (l : List α) (r : Rng) :
    shuffle (l.map f) r = ((shuffle l r).1.map (List.map f), (shuffle l r).2) := by
  unfold shuffle
  rw [List.length_map, shuffleFrom_map]

theorem swapAt_perm {α : Type} (l : List α) (i j : ℕ) : (swapAt l i j).Perm l := by
  unfold swapAt
  rcases hi : l[i]? with _ | a
  · exact List.Perm.refl _
  · rcases hj : l[j]? with _ | b
    · exact List.Perm.refl _
    · simp only
      obtain ⟨hi1, hi2⟩ := List.getElem?_eq_some_iff.mp hi
      obtain ⟨hj1, hj2⟩ := List.getElem?_eq_some_iff.mp hj
      have e : (l.set i b).set j a = List.ofFn (l.get ∘ Equiv.swap ⟨i, hi1⟩ ⟨j, hj1⟩) := by
        apply List.ext_getElem
        · simp
        · intro k h1 h2
          have hk : k < l.length := by simpa using h1
          simp only [List.getElem_ofFn, Function.comp, List.getElem_set]
          by_cases hkj : j = k
          · subst hkj
            rw [if_pos rfl, Equiv.swap_apply_right]
            simp [hi2]
          · rw [if_neg hkj]
            by_cases hki : i = k
            · subst hki
              rw [if_pos rfl, Equiv.swap_apply_left]
              simp [hj2]
            · rw [if_neg hki, Equiv.swap_apply_of_ne_of_ne]
              · simp
              · intro h; exact hki (congrArg Fin.val h).symm
              · intro h; exact hkj (congrArg Fin.val h).symm
      rw [e]
      refine (Equiv.Perm.ofFn_comp_perm _ _).trans ?_
      rw [List.ofFn_get]

theorem shuffleFrom_perm {α : Type} (i : ℕ) (l : List α) (r : Rng) :
    ∃ l' r', shuffleFrom i l r = (.ok l', r') ∧ l'.Perm l := by
  induction i generalizing l r with
  | zero => exact ⟨l, r, rfl, List.Perm.refl _⟩
  | succ i ih =>
    unfold shuffleFrom
    rw [PyM.bind_of_ok (randBelow_eq _ r)]
    obtain ⟨l', r', h1, h2⟩ := ih (swapAt l (i + 1) (r.nat r.npos % (i + 2))) { r with npos := r.npos + 1 }
    exact ⟨l', r', h1, h2.trans (swapAt_perm _ _ _)⟩

theorem shuffle_perm {α : Type} (l : List α) (r : Rng) :
    ∃ l' r', shuffle l r = (.ok l', r') ∧ l'.Perm l := shuffleFrom_perm _ _ _

theorem choiceNoReplace_ok {n k : ℕ} (h : k ≤ n) (r : Rng) :
    ∃ l r', choiceNoReplace n k r = (.ok l, r') ∧ l.length = k ∧ l.Nodup ∧ ∀ q ∈ l, q < n := by
  obtain ⟨l', r', h1, h2⟩ := shuffle_perm (List.range n) r
  refine ⟨l'.take k, r', ?_, ?_, ?_, ?_⟩
  · unfold choiceNoReplace
    have e : PyM.lift (raiseUnless (k ≤ n) .valueError) r = (.ok (), r) := by rw [raiseUnless_of h]; rfl
    rw [PyM.bind_of_ok e, PyM.bind_of_ok h1]
    rfl
  · rw [List.length_take, h2.length_eq, List.length_range]; omega
  · exact (h2.nodup_iff.mpr List.nodup_range).sublist (List.take_sublist _ _)
  · intro q hq
    exact List.mem_range.mp (h2.subset (List.mem_of_mem_take hq))

theorem choiceNoReplace_error {n k : ℕ} (h : ¬ k ≤ n) (r : Rng) :
    choiceNoReplace n k r = (.error .valueError, r) := by
  unfold choiceNoReplace
  rw [raiseUnless_of_not h]; rfl

theorem choice_ok {n : ℕ} (h : 0 < n) (r : Rng) :
    ∃ i, choice n r = (.ok i, { r with npos := r.npos + 1 }) ∧ i < n := by
  refine ⟨r.nat r.npos % n, ?_, Nat.mod_lt _ h⟩
  unfold choice
  rw [raiseUnless_of h]; rfl

theorem choice_error (r : Rng) : choice 0 r = (.error .valueError, r) := by
  unfold choice
  rw [raiseUnless_of_not (lt_irrefl 0)]; rfl

end Rng

end Stoq

namespace Stoq.Rng

/-! ## Every order is a possible result of a shuffle -/

theorem swapAt_append {α : Type} (a t : List α) {i j : ℕ} (hi : i < a.length) (hj : j < a.length) :
    swapAt (a ++ t) i j = swapAt a i j ++ t := by
  unfold swapAt
  rw [List.getElem?_append_left hi, List.getElem?_append_left hj, List.getElem?_eq_getElem hi,
    List.getElem?_eq_getElem hj]
  simp only
  rw [List.set_append_left _ _ hi, List.set_append_left _ _ (by simpa using hj)]

theorem swapAt_length {α : Type} (a : List α) (i j : ℕ) : (swapAt a i j).length = a.length :=
  (swapAt_perm a i j).length_eq

theorem swapAt_get {α : Type} (a : List α) {i j : ℕ} (hi : i < a.length) (hj : j < a.length) :
    (swapAt a i j)[i]? = a[j]? := by
  unfold swapAt
  rw [List.getElem?_eq_getElem hi, List.getElem?_eq_getElem hj]
  simp only
  by_cases h : i = j
  · subst h; simp [hi]
  · rw [List.getElem?_set_ne (by omega), List.getElem?_set_self hi]

theorem shuffleFrom_surj {α : Type} (i : ℕ) (a a' t : List α) (hlen : a.length = i + 1) (hp : a'.Perm a) :
    ∃ f : ℕ → ℕ, ∀ r : Rng, (∀ k, r.nat (r.npos + k) = f k) → (shuffleFrom i (a ++ t) r).1 = .ok (a' ++ t) := by
  induction i generalizing a a' t with
  | zero =>
    refine ⟨fun _ => 0, fun r _ => ?_⟩
    obtain ⟨x, rfl⟩ := List.length_eq_one_iff.mp hlen
    rw [List.perm_singleton.mp hp]
    rfl
  | succ i ih =>
    rcases List.eq_nil_or_concat a' with rfl | ⟨b', x, rfl⟩
    · have := hp.length_eq; simp [hlen] at this
    rw [List.concat_eq_append] at hp ⊢
    have hxa : x ∈ a := hp.subset (by simp)
    obtain ⟨j, hj, hjx⟩ := List.getElem_of_mem hxa
    have hi : i + 1 < a.length := by omega
    have hget := swapAt_get a hi hj
    rw [List.getElem?_eq_getElem hj, hjx] at hget
    have hsl := swapAt_length a (i + 1) j
    rcases List.eq_nil_or_concat (swapAt a (i + 1) j) with h0 | ⟨b, y, hb⟩
    · rw [h0] at hsl; simp at hsl; omega
    rw [List.concat_eq_append] at hb
    have hbl : b.length = i + 1 := by
      rw [hb] at hsl; simp at hsl; omega
    rw [hb, List.getElem?_append_right (by omega)] at hget
    have hyx : y = x := by simpa [hbl] using hget
    subst hyx
    have hperm : b'.Perm b := by
      have h1 : (b ++ [y]).Perm a := hb ▸ swapAt_perm a (i + 1) j
      exact (List.perm_append_right_iff [y]).mp (hp.trans h1.symm)
    obtain ⟨f, hf⟩ := ih b b' ([y] ++ t) hbl hperm
    refine ⟨fun k => match k with | 0 => j | k + 1 => f k, fun r hr => ?_⟩
    rw [shuffleFrom, PyM.bind_of_ok (randBelow_eq (i + 2) r)]
    have h0 := hr 0
    simp only [Nat.add_zero] at h0
    rw [h0, Nat.mod_eq_of_lt (by omega), swapAt_append a t hi hj, hb, List.append_assoc, List.append_assoc]
    refine hf _ fun k => ?_
    have := hr (k + 1)
    simp only at this ⊢
    rw [← this]
    congr 1
    omega

theorem shuffleFrom_pos {α : Type} (i : ℕ) (l : List α) (r : Rng) :
    (shuffleFrom i l r).2 = { r with npos := r.npos + i } := by
  induction i generalizing l r with
  | zero => rfl
  | succ i ih =>
    rw [shuffleFrom, PyM.bind_of_ok (randBelow_eq _ r), ih]
    simp only [Rng.mk.injEq, true_and]
    omega

theorem shuffle_pos {α : Type} (l : List α) (r : Rng) :
    (shuffle l r).2 = { r with npos := r.npos + (l.length - 1) } := shuffleFrom_pos _ l r

theorem shuffleFrom_congr {α : Type} (i : ℕ) (l : List α) (r r' : Rng)
    (h : ∀ k < i, r.nat (r.npos + k) = r'.nat (r'.npos + k)) : (shuffleFrom i l r).1 = (shuffleFrom i l r').1 := by
  induction i generalizing l r r' with
  | zero => rfl
  | succ i ih =>
    rw [shuffleFrom, PyM.bind_of_ok (randBelow_eq _ r), PyM.bind_of_ok (randBelow_eq _ r')]
    have h0 := h 0 (by omega)
    simp only [Nat.add_zero] at h0
    rw [h0]
    refine ih _ _ _ fun k hk => ?_
    have := h (k + 1) (by omega)
    simp only
    rw [Nat.add_assoc, Nat.add_comm 1, this, Nat.add_assoc, Nat.add_comm 1]

theorem shuffle_surj {α : Type} (l l' : List α) (hp : l'.Perm l) :
    ∃ f : ℕ → ℕ, ∀ r : Rng, (∀ k, r.nat (r.npos + k) = f k) → (shuffle l r).1 = .ok l' := by
  cases l with
  | nil => exact ⟨fun _ => 0, fun r _ => by rw [List.perm_nil.mp hp]; rfl⟩
  | cons x l =>
    obtain ⟨f, hf⟩ := shuffleFrom_surj l.length (x :: l) l' [] rfl hp
    exact ⟨f, fun r hr => by simpa [shuffle] using hf r hr⟩

end Stoq.Rng
