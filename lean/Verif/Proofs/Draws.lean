import Verif.Spec.Draws
import Verif.Proofs.Random
import Mathlib.Data.List.Permutation
import Mathlib.SetTheory.Cardinal.Finite

/-! # Computations as functions of their draws -/

namespace Stoq

namespace Rng

variable {α β : Type}

theorem skip_zero (r : Rng) : r.skip 0 0 = r := rfl

theorem skip_skip (r : Rng) (a b c d : ℕ) : (r.skip a b).skip c d = r.skip (a + c) (b + d) := by
  simp [skip, Nat.add_assoc]

theorem delivers_nil (r : Rng) : r.Delivers [] [] := ⟨by simp, by simp⟩

theorem delivers_append {r : Rng} {us us' : List (Set.Ico (0 : ℝ) 1)} {ns ns' : List (ℕ × ℕ)} :
    r.Delivers (us ++ us') (ns ++ ns') ↔ r.Delivers us ns ∧ (r.skip us.length ns.length).Delivers us' ns' := by
  constructor
  · rintro ⟨h1, h2⟩
    refine ⟨⟨fun i h => ?_, fun i h => ?_⟩, fun i h => ?_, fun i h => ?_⟩
    · have := h1 i (by simp; omega)
      rwa [List.getElem_append_left h] at this
    · have := h2 i (by simp; omega)
      simpa only [List.getElem_append_left h] using this
    · have := h1 (us.length + i) (by simp; omega)
      rw [List.getElem_append_right (by omega)] at this
      simpa [skip, Nat.add_assoc] using this
    · have := h2 (ns.length + i) (by simp; omega)
      rw [List.getElem_append_right (by omega)] at this
      simpa [skip, Nat.add_assoc] using this
  · rintro ⟨⟨h1, h2⟩, h3, h4⟩
    refine ⟨fun i h => ?_, fun i h => ?_⟩
    · by_cases hi : i < us.length
      · rw [List.getElem_append_left hi]; exact h1 i hi
      · rw [List.getElem_append_right (by omega)]
        have := h3 (i - us.length) (by simp at h; omega)
        rw [← this]
        show r.unif _ = r.unif _
        congr 1
        show r.upos + i = r.upos + us.length + _
        omega
    · by_cases hi : i < ns.length
      · rw [List.getElem_append_left hi]; exact h2 i hi
      · rw [List.getElem_append_right (by omega)]
        have := h4 (i - ns.length) (by simp at h; omega)
        rw [← this]
        show r.nat _ % _ = r.nat _ % _
        congr 2
        show r.npos + i = r.npos + ns.length + _
        omega

/-- Every list of draws in range is delivered by some random source. -/
theorem delivers_exists (us : List (Set.Ico (0 : ℝ) 1)) {ns : List (ℕ × ℕ)} (h : InRange ns) (a b : ℕ) :
    ∃ r : Rng, r.upos = a ∧ r.npos = b ∧ r.Delivers us ns := by
  refine ⟨⟨fun i => us.getD (i - a) ⟨0, by simp⟩, fun i => (ns.getD (i - b) (0, 0)).2, a, b⟩, rfl, rfl,
    fun i hi => ?_, fun i hi => ?_⟩
  · simp [hi]
  · have := h _ (List.getElem_mem hi)
    simp [hi, Nat.mod_eq_of_lt this]

theorem inRange_append {ns ns' : List (ℕ × ℕ)} : InRange (ns ++ ns') ↔ InRange ns ∧ InRange ns' := by
  simp only [InRange, List.mem_append]
  exact ⟨fun h => ⟨fun x hx => h x (.inl hx), fun x hx => h x (.inr hx)⟩,
    fun h x hx => hx.elim (h.1 x) (h.2 x)⟩

theorem inRange_cons {x : ℕ × ℕ} {ns : List (ℕ × ℕ)} : InRange (x :: ns) ↔ x.2 < x.1 ∧ InRange ns := by
  simp [InRange]

theorem inRange_nil : InRange [] := by simp [InRange]

namespace Yields

theorem pure (x : α) : Yields (Pure.pure x) [] [] x := fun r _ => by rfl

theorem bind {m : PyM Rng α} {f : α → PyM Rng β} {us us' : List (Set.Ico (0 : ℝ) 1)} {ns ns' : List (ℕ × ℕ)}
    {x : α} {y : β} (hm : Yields m us ns x) (hf : Yields (f x) us' ns' y) :
    Yields (m >>= f) (us ++ us') (ns ++ ns') y := by
  intro r hr
  obtain ⟨h1, h2⟩ := delivers_append.mp hr
  rw [PyM.bind_of_ok (hm r h1), hf _ h2, skip_skip, List.length_append, List.length_append]

theorem lift {e : Except PyErr α} {x : α} (h : e = .ok x) : Yields (PyM.lift e) [] [] x := fun r _ => by
  rw [h]; rfl

theorem bind_lift {e : Except PyErr α} {f : α → PyM Rng β} {us : List (Set.Ico (0 : ℝ) 1)} {ns : List (ℕ × ℕ)}
    {x : α} {y : β} (h : e = .ok x) (hf : Yields (f x) us ns y) : Yields (PyM.lift e >>= f) us ns y :=
  (lift h).bind hf

theorem map {m : PyM Rng α} {us : List (Set.Ico (0 : ℝ) 1)} {ns : List (ℕ × ℕ)} {x : α} (f : α → β)
    (hm : Yields m us ns x) : Yields (m >>= fun a => Pure.pure (f a)) us ns (f x) := by
  have := Yields.bind (f := fun a => Pure.pure (f a)) hm (pure (f x))
  simpa using this

theorem inj {m : PyM Rng α} {us : List (Set.Ico (0 : ℝ) 1)} {ns : List (ℕ × ℕ)} {x y : α} (hr : InRange ns)
    (h1 : Yields m us ns x) (h2 : Yields m us ns y) : x = y := by
  obtain ⟨r, -, -, hd⟩ := delivers_exists us hr 0 0
  have := (h1 r hd).symm.trans (h2 r hd)
  simpa using this

theorem randomSample (u : Set.Ico (0 : ℝ) 1) : Yields randomSample [u] [] (u : ℝ) := fun r hr => by
  have := hr.1 0 (by simp)
  simp only [Nat.add_zero, List.getElem_cons_zero] at this
  rw [randomSample_eq, this]; rfl

theorem randBelow (n d : ℕ) : Yields (randBelow n) [] [(n, d)] d := fun r hr => by
  have := hr.2 0 (by simp)
  simp only [Nat.add_zero, List.getElem_cons_zero] at this
  rw [randBelow_eq, this]; rfl

theorem choice {n : ℕ} (h : 0 < n) (d : ℕ) : Yields (choice n) [] [(n, d)] d := by
  unfold Rng.choice
  exact bind_lift (raiseUnless_of h) (randBelow n d)

end Yields

theorem chosenBy_iff {n : ℕ} {p : List ℝ} (h : ValidP n p) (u : Set.Ico (0 : ℝ) 1) {i : ℕ} :
    ChosenBy p u i ↔ searchsortedRight ((cumsum p).map (· / p.sum)) u = i := by
  have h0 := search_spec h u rfl
  generalize searchsortedRight ((cumsum p).map (· / p.sum)) u = k at h0
  rw [← h.len] at h0
  have mono : ∀ a b : ℕ, a ≤ b → (p.take a).sum ≤ (p.take b).sum := by
    intro a b hab
    obtain ⟨c, rfl⟩ := Nat.exists_eq_add_of_le hab
    rw [List.take_add, List.sum_append]
    have : 0 ≤ ((p.drop a).take c).sum :=
      List.sum_nonneg fun x hx => h.nonneg x (List.mem_of_mem_drop (List.mem_of_mem_take hx))
    linarith
  constructor
  · rintro ⟨h1, h2, h3⟩
    obtain ⟨-, h5, h6⟩ := h0
    rcases Nat.lt_trichotomy k i with hk | hk | hk
    · have := mono (k + 1) i hk; linarith
    · exact hk
    · have := mono (i + 1) k hk; linarith
  · rintro rfl; exact h0

theorem Yields.choiceP {n : ℕ} {p : List ℝ} (h : ValidP n p) {u : Set.Ico (0 : ℝ) 1} {i : ℕ}
    (hi : ChosenBy p u i) : Yields (choiceP n p) [u] [] i := fun r hr => by
  have := hr.1 0 (by simp)
  simp only [Nat.add_zero, List.getElem_cons_zero] at this
  rw [choiceP_eq h, this, (chosenBy_iff h u).mp hi]; rfl

/-! ## Shuffles -/

/-- The bounds of the draws of `shuffleFrom i`. -/
def bounds : ℕ → List ℕ
  | 0 => []
  | i + 1 => (i + 2) :: bounds i

theorem bounds_eq (i : ℕ) : bounds i = (List.range i).map (fun t => i + 1 - t) := by
  induction i with
  | zero => rfl
  | succ i ih =>
    rw [bounds, ih, List.range_succ_eq_map, List.map_cons, List.map_map]
    congr 1
    refine List.map_congr_left fun t _ => ?_
    simp only [Function.comp]
    omega

theorem shuffleDraws_iff {n : ℕ} {ns : List (ℕ × ℕ)} :
    ShuffleDraws n ns ↔ ns.map Prod.fst = bounds (n - 1) ∧ InRange ns := by
  unfold ShuffleDraws
  rw [bounds_eq]
  refine and_congr_left fun _ => ?_
  have : (List.range (n - 1)).map (fun t => n - t) = (List.range (n - 1)).map (fun t => n - 1 + 1 - t) := by
    refine List.map_congr_left fun t ht => ?_
    have := List.mem_range.mp ht
    omega
  rw [this]

/-- The draws used by a shuffle. -/
theorem shuffleFrom_draws (i : ℕ) (l : List α) {ns : List (ℕ × ℕ)} (hns : ns.map Prod.fst = bounds i) :
    ∃ l', Yields (shuffleFrom i l) [] ns l' := by
  induction i generalizing l ns with
  | zero =>
    have : ns = [] := by simpa [bounds] using hns
    subst this
    exact ⟨l, Yields.pure l⟩
  | succ i ih =>
    rcases ns with _ | ⟨⟨b, d⟩, ns⟩
    · simp [bounds] at hns
    · simp only [List.map_cons, bounds, List.cons.injEq] at hns
      obtain ⟨rfl, hns⟩ := hns
      obtain ⟨l', hl'⟩ := ih (swapAt l (i + 1) d) hns
      exact ⟨l', (Yields.randBelow (i + 2) d).bind hl'⟩

theorem shuffle_draws (l : List α) {ns : List (ℕ × ℕ)} (hns : ShuffleDraws l.length ns) :
    ∃ l', Yields (shuffle l) [] ns l' := shuffleFrom_draws _ l (shuffleDraws_iff.mp hns).1

/-- Every random source delivers some draws for a shuffle. -/
theorem shuffle_delivers (r : Rng) (n : ℕ) : ∃ ns, ShuffleDraws n ns ∧ r.Delivers [] ns := by
  refine ⟨(List.range (n - 1)).map fun t => (n - t, r.nat (r.npos + t) % (n - t)), ⟨?_, ?_⟩, by simp, ?_⟩
  · rw [List.map_map]; rfl
  · intro x hx
    obtain ⟨t, ht, rfl⟩ := List.mem_map.mp hx
    have := List.mem_range.mp ht
    exact Nat.mod_lt _ (by omega)
  · intro i hi
    simp

theorem Yields.shuffle_perm {l l' : List α} {ns : List (ℕ × ℕ)} (hr : InRange ns)
    (h : Yields (shuffle l) [] ns l') : l'.Perm l := by
  obtain ⟨r, -, -, hd⟩ := delivers_exists [] hr 0 0
  obtain ⟨l2, r2, h1, h2⟩ := Rng.shuffle_perm l r
  rw [h r hd] at h1
  simp only [Prod.mk.injEq, Except.ok.injEq] at h1
  exact h1.1 ▸ h2

theorem swapAt_split {a : List α} {i d : ℕ} (hlen : a.length = i + 2) (hd : d < a.length) :
    ∃ b, swapAt a (i + 1) d = b ++ [a[d]] ∧ b.length = i + 1 := by
  have hi : i + 1 < a.length := by omega
  have hget := swapAt_get a hi hd
  rw [List.getElem?_eq_getElem hd] at hget
  have hsl := swapAt_length a (i + 1) d
  rcases List.eq_nil_or_concat (swapAt a (i + 1) d) with h0 | ⟨b, y, hb⟩
  · rw [h0] at hsl; simp at hsl; omega
  rw [List.concat_eq_append] at hb
  have hbl : b.length = i + 1 := by
    rw [hb] at hsl; simp at hsl; omega
  rw [hb, List.getElem?_append_right (by omega)] at hget
  have hyx : y = a[d] := by simpa [hbl] using hget
  exact ⟨b, by rw [hb, hyx], hbl⟩

/-- A shuffle of the first elements leaves the rest where it is. -/
theorem shuffleFrom_tail (i : ℕ) (a t : List α) (hlen : a.length = i + 1) {ns : List (ℕ × ℕ)}
    (hns : ns.map Prod.fst = bounds i) (hr : InRange ns) :
    ∃ a', a'.length = i + 1 ∧ Yields (shuffleFrom i (a ++ t)) [] ns (a' ++ t) := by
  induction i generalizing a t ns with
  | zero =>
    have : ns = [] := by simpa [bounds] using hns
    subst this
    exact ⟨a, hlen, Yields.pure _⟩
  | succ i ih =>
    rcases ns with _ | ⟨⟨b, d⟩, ns⟩
    · simp [bounds] at hns
    simp only [List.map_cons, bounds, List.cons.injEq] at hns
    obtain ⟨rfl, hns⟩ := hns
    obtain ⟨hd, hr⟩ := inRange_cons.mp hr
    have hd' : d < a.length := by simp only at hd; omega
    obtain ⟨b, hb, hbl⟩ := swapAt_split hlen hd'
    obtain ⟨a', h1, h2⟩ := ih b ([a[d]] ++ t) hbl hns hr
    refine ⟨a' ++ [a[d]], by simp [h1], ?_⟩
    rw [← List.append_assoc, ← hb, ← swapAt_append a t (by omega) hd', ← List.append_assoc] at h2
    exact Yields.bind (f := fun j => shuffleFrom i (swapAt (a ++ t) (i + 1) j)) (Yields.randBelow (i + 2) d) h2

theorem shuffleFrom_unique (i : ℕ) (a a' t : List α) (hnd : a.Nodup) (hlen : a.length = i + 1) (hp : a'.Perm a) :
    ∃! ns, (ns.map Prod.fst = bounds i ∧ InRange ns) ∧ Yields (shuffleFrom i (a ++ t)) [] ns (a' ++ t) := by
  induction i generalizing a a' t with
  | zero =>
    obtain ⟨x, rfl⟩ := List.length_eq_one_iff.mp hlen
    rw [List.perm_singleton.mp hp]
    refine ⟨[], ⟨⟨rfl, inRange_nil⟩, Yields.pure _⟩, fun ns h => ?_⟩
    simpa [bounds] using h.1.1
  | succ i ih =>
    rcases List.eq_nil_or_concat a' with rfl | ⟨b', x, rfl⟩
    · have := hp.length_eq; simp [hlen] at this
    rw [List.concat_eq_append] at hp ⊢
    have hb'l : b'.length = i + 1 := by have := hp.length_eq; simp [hlen] at this; omega
    have hxa : x ∈ a := hp.subset (by simp)
    obtain ⟨j, hj, hjx⟩ := List.getElem_of_mem hxa
    have hi : i + 1 < a.length := by omega
    obtain ⟨b, hb, hbl⟩ := swapAt_split hlen hj
    have hbperm : (b ++ [a[j]]).Perm a := hb ▸ swapAt_perm a (i + 1) j
    have hperm : b'.Perm b := by
      rw [hjx] at hbperm
      exact (List.perm_append_right_iff [x]).mp (hp.trans hbperm.symm)
    have hbnd : b.Nodup := (hbperm.nodup_iff.mpr hnd).sublist (List.sublist_append_left _ _)
    have hstep : ∀ (ns : List (ℕ × ℕ)) (l : List α), Yields (shuffleFrom i (b ++ ([x] ++ t))) [] ns l →
        Yields (shuffleFrom (i + 1) (a ++ t)) [] ((i + 2, j) :: ns) l := by
      intro ns l h
      rw [← hjx, ← List.append_assoc, ← hb, ← swapAt_append a t (by omega) hj] at h
      exact Yields.bind (f := fun j => shuffleFrom i (swapAt (a ++ t) (i + 1) j)) (Yields.randBelow (i + 2) j) h
    obtain ⟨ns, ⟨⟨h1, h2⟩, h3⟩, h4⟩ := ih b b' ([x] ++ t) hbnd hbl hperm
    refine ⟨(i + 2, j) :: ns, ⟨⟨by simp [bounds, h1], inRange_cons.mpr ⟨by simpa using (by omega : j < i + 2), h2⟩⟩, ?_⟩, ?_⟩
    · rw [List.append_assoc]; exact hstep _ _ h3
    · rintro ns' ⟨⟨g1, g2⟩, g3⟩
      rcases ns' with _ | ⟨⟨c, d⟩, ns'⟩
      · simp [bounds] at g1
      simp only [List.map_cons, bounds, List.cons.injEq] at g1
      obtain ⟨rfl, g1⟩ := g1
      have g2' := g2
      obtain ⟨gd, g2⟩ := inRange_cons.mp g2
      have hd : d < a.length := by simp only at gd; omega
      obtain ⟨b2, hb2, hbl2⟩ := swapAt_split hlen hd
      obtain ⟨a2, g4, g5⟩ := shuffleFrom_tail i b2 ([a[d]] ++ t) hbl2 g1 g2
      have g6 : Yields (shuffleFrom (i + 1) (a ++ t)) [] ((i + 2, d) :: ns') (a2 ++ ([a[d]] ++ t)) := by
        rw [← List.append_assoc b2, ← hb2, ← swapAt_append a t (by omega) hd] at g5
        exact Yields.bind (f := fun j => shuffleFrom i (swapAt (a ++ t) (i + 1) j)) (Yields.randBelow (i + 2) d) g5
      have g7 := Yields.inj g2' g6 g3
      rw [List.append_assoc] at g7
      have g8 := List.append_inj g7 (by omega)
      have g9 : a[d] = x := by simpa using g8.2
      have hdj : d = j := (List.Nodup.getElem_inj_iff hnd).mp (g9.trans hjx.symm)
      subst hdj
      congr 1
      refine h4 ns' ⟨⟨g1, g2⟩, ?_⟩
      have hbb : b2 = b := by
        rw [hb2] at hb
        exact (List.append_inj hb (by omega)).1
      rw [hbb, g9, g8.1] at g5
      exact g5

/-- A list of distinct objects is brought into each order by exactly one list of draws. -/
theorem shuffle_unique {l l' : List α} (hnd : l.Nodup) (hp : l'.Perm l) :
    ∃! ns, ShuffleDraws l.length ns ∧ Yields (shuffle l) [] ns l' := by
  simp only [shuffleDraws_iff]
  cases l with
  | nil =>
    rw [List.perm_nil.mp hp]
    refine ⟨[], ⟨⟨rfl, inRange_nil⟩, Yields.pure _⟩, fun ns h => ?_⟩
    simpa [bounds] using h.1.1
  | cons x l =>
    have := shuffleFrom_unique l.length (x :: l) l' [] hnd rfl hp
    simpa [shuffle] using this

theorem shuffleFrom_reach (i : ℕ) (a a' t : List α) (hlen : a.length = i + 1) (hp : a'.Perm a) :
    ∃ ns, InRange ns ∧ Yields (shuffleFrom i (a ++ t)) [] ns (a' ++ t) := by
  induction i generalizing a a' t with
  | zero =>
    obtain ⟨x, rfl⟩ := List.length_eq_one_iff.mp hlen
    rw [List.perm_singleton.mp hp]
    exact ⟨[], inRange_nil, Yields.pure _⟩
  | succ i ih =>
    rcases List.eq_nil_or_concat a' with rfl | ⟨b', x, rfl⟩
    · have := hp.length_eq; simp [hlen] at this
    rw [List.concat_eq_append] at hp ⊢
    obtain ⟨j, hj, hjx⟩ := List.getElem_of_mem (hp.subset (by simp : x ∈ b' ++ [x]))
    obtain ⟨b, hb, hbl⟩ := swapAt_split hlen hj
    have hbperm : (b ++ [a[j]]).Perm a := hb ▸ swapAt_perm a (i + 1) j
    have hperm : b'.Perm b := by
      rw [hjx] at hbperm
      exact (List.perm_append_right_iff [x]).mp (hp.trans hbperm.symm)
    obtain ⟨ns, h2, h3⟩ := ih b b' ([x] ++ t) hbl hperm
    refine ⟨(i + 2, j) :: ns, inRange_cons.mpr ⟨by simpa using (by omega : j < i + 2), h2⟩, ?_⟩
    rw [List.append_assoc]
    rw [← hjx, ← List.append_assoc, ← hb, ← swapAt_append a t (by omega) hj] at h3
    have := Yields.bind (f := fun j => shuffleFrom i (swapAt (a ++ t) (i + 1) j)) (Yields.randBelow (i + 2) j) h3
    rwa [hjx] at this

/-- Every rearrangement of a list can be the result of a shuffle. -/
theorem shuffle_reach {l l' : List α} (hp : l'.Perm l) :
    ∃ ns, InRange ns ∧ Yields (shuffle l) [] ns l' := by
  cases l with
  | nil => rw [List.perm_nil.mp hp]; exact ⟨[], inRange_nil, Yields.pure _⟩
  | cons x l =>
    have := shuffleFrom_reach l.length (x :: l) l' [] rfl hp
    simpa [shuffle] using this

/-! ## Counting -/

theorem card_perm {l : List α} (hnd : l.Nodup) : Nat.card {l' : List α // l'.Perm l} = l.length.factorial := by
  classical
  have e : {l' : List α // l'.Perm l} ≃ {l' // l' ∈ l.permutations.toFinset} :=
    Equiv.subtypeEquivRight fun l' => by simp
  rw [Nat.card_congr e, Nat.card_eq_fintype_card, Fintype.card_coe,
    List.toFinset_card_of_nodup (List.nodup_permutations l hnd), List.length_permutations]

/-- The number of orders beginning with given elements. -/
theorem card_perm_prefix {l a : List α} (hnd : l.Nodup) (ha : a.Nodup) (hsub : ∀ x ∈ a, x ∈ l) :
    Nat.card {l' : List α // l'.Perm l ∧ a <+: l'} = (l.length - a.length).factorial := by
  classical
  have hperm : (a ++ l.diff a).Perm l := List.subperm_append_diff_self_of_count_le fun x hx => by
    rw [List.count_eq_one_of_mem ha hx]
    exact List.one_le_count_iff.mpr (hsub x hx)
  have hlen : (l.diff a).length = l.length - a.length := by
    have := hperm.length_eq
    simp at this; omega
  have e : {l' : List α // l'.Perm l ∧ a <+: l'} ≃ {t : List α // t.Perm (l.diff a)} :=
    { toFun := fun x => ⟨x.1.drop a.length, by
        obtain ⟨l', h1, t, rfl⟩ := x
        rw [List.drop_left]
        exact (List.perm_append_left_iff a).mp (h1.trans hperm.symm)⟩
      invFun := fun t => ⟨a ++ t.1, ((List.perm_append_left_iff a).mpr t.2).trans hperm, List.prefix_append _ _⟩
      left_inv := by
        rintro ⟨l', h1, t, rfl⟩
        simp
      right_inv := by
        rintro ⟨t, h⟩
        simp }
  rw [Nat.card_congr e, card_perm (hnd.sublist (List.diff_sublist l a)), hlen]

/-- Draws correspond to orders. -/
theorem card_draws {l : List α} (hnd : l.Nodup) (Q : List α → Prop) :
    Nat.card {ns : List (ℕ × ℕ) // ShuffleDraws l.length ns ∧ ∃ l', Yields (shuffle l) [] ns l' ∧ Q l'} =
      Nat.card {l' : List α // l'.Perm l ∧ Q l'} := by
  symm
  refine Nat.card_congr (Equiv.ofBijective (fun x => ⟨(shuffle_unique hnd x.2.1).choose,
    (shuffle_unique hnd x.2.1).choose_spec.1.1, x.1, (shuffle_unique hnd x.2.1).choose_spec.1.2, x.2.2⟩) ⟨?_, ?_⟩)
  · rintro ⟨x, hx⟩ ⟨y, hy⟩ hxy
    simp only [Subtype.mk.injEq] at hxy ⊢
    have h1 := (shuffle_unique hnd hx.1).choose_spec.1
    have h2 := (shuffle_unique hnd hy.1).choose_spec.1
    rw [← hxy] at h2
    exact Yields.inj h1.1.2 h1.2 h2.2
  · rintro ⟨ns, h1, l', h2, h3⟩
    have hp := h2.shuffle_perm h1.2
    refine ⟨⟨l', hp, h3⟩, ?_⟩
    simp only [Subtype.mk.injEq]
    exact ((shuffle_unique hnd hp).choose_spec.2 ns ⟨h1, h2⟩).symm

theorem choiceNoReplace_yields {n k : ℕ} (hk : k ≤ n) {ns : List (ℕ × ℕ)} {order : List ℕ}
    (h : Yields (shuffle (List.range n)) [] ns order) : Yields (choiceNoReplace n k) [] ns (order.take k) := by
  unfold choiceNoReplace
  exact Yields.bind_lift (raiseUnless_of hk) (Yields.map _ h)

end Rng

open Compiler

/-! ## Random gates -/

theorem randomParameterValues_yields (ps : List Parameter) (us : List (Set.Ico (0 : ℝ) 1))
    (h : us.length = ps.length) :
    Rng.Yields (randomParameterValues ps) us []
      (List.zipWith Parameter.atFraction ps us) := by
  induction ps generalizing us with
  | nil =>
    have : us = [] := by simpa using h
    subst this
    exact Rng.Yields.pure _
  | cons p ps ih =>
    rcases us with _ | ⟨u, us⟩
    · simp at h
    unfold randomParameterValues
    have h1 : Rng.Yields p.randomValue [u] [] ((u : ℝ) * (p.maxValue - p.minValue) + p.minValue) := by
      unfold Parameter.randomValue
      exact Rng.Yields.map (fun r => r * (p.maxValue - p.minValue) + p.minValue) (Rng.Yields.randomSample u)
    have h2 := Rng.Yields.map (fun vs => ((u : ℝ) * (p.maxValue - p.minValue) + p.minValue) :: vs)
      (ih us (by simpa using h))
    have h3 := Rng.Yields.bind (f := fun v => randomParameterValues ps >>= fun vs => pure (v :: vs)) h1 h2
    rw [List.zipWith_cons_cons, Parameter.atFraction, add_comm p.minValue]
    exact h3

theorem pickUnitary_yields {τ : Arith} {p : Primitive} {us : List (Set.Ico (0 : ℝ) 1)} {u : Unitary}
    (h : p.DrawsUnitary τ us u) : Rng.Yields (pickUnitary τ p) us [] u := by
  unfold pickUnitary
  unfold Primitive.DrawsUnitary at h
  rcases hu : p.unitary with u0 | pu
  · rw [hu] at h
    obtain ⟨rfl, rfl⟩ := h
    exact Rng.Yields.pure _
  · rw [hu] at h
    obtain ⟨h1, h2⟩ := h
    have h3 := Rng.Yields.bind (f := fun values => PyM.lift (pu.asUnitary τ values))
      (randomParameterValues_yields pu.parameters us h1) (Rng.Yields.lift h2)
    simpa using h3

theorem entryNew_nat {u : Unitary} {qs : List ℕ} (h1 : qs.Nodup) (h2 : 2 ^ qs.length = u.getDimension)
    (h3 : qs ≠ []) : EntryVal.new u (qs.map Int.ofNat) = .ok ⟨u, qs⟩ := by
  unfold EntryVal.new
  rw [assertE_of (h1.map fun a b hab => Int.ofNat.inj hab), ok_bind, assertE_of (by simpa using h2), ok_bind,
    raiseUnless_of (by simpa using h3), ok_bind, assertE_of (by
      intro a ha
      obtain ⟨b, -, rfl⟩ := List.mem_map.mp ha
      exact Int.natCast_nonneg b), ok_bind, List.map_map]
  congr 2
  exact List.map_id'' (fun _ => rfl) qs

theorem pickQubits_yields {m : ℕ} {p : Primitive} {ns : List (ℕ × ℕ)} {u : Unitary} {qs : List ℕ}
    (h : p.DrawsQubits m ns qs) (h1 : qs.Nodup) (h2 : 2 ^ qs.length = u.getDimension) (h3 : qs ≠ []) :
    Rng.Yields (pickQubits m p u) [] ns ⟨u, qs⟩ := by
  have hnew := entryNew_nat h1 h2 h3
  unfold pickQubits
  unfold Primitive.DrawsQubits at h
  rcases hl : p.allowedApplyTo with _ | lists
  · rw [hl] at h
    obtain ⟨hd, order, ho, hpre⟩ := h
    have hlog : intLog2 u.getDimension = qs.length := by rw [← h2]; exact log2_pow _
    have hk : qs.length ≤ m := by
      have := hpre.length_le
      rw [(ho.shuffle_perm hd.2).length_eq, List.length_range] at this
      exact this
    simp only
    rw [hlog]
    have h4 := Rng.choiceNoReplace_yields hk ho
    rw [← List.prefix_iff_eq_take.mp hpre] at h4
    have h5 := Rng.Yields.bind (f := fun applyTo => PyM.lift (EntryVal.new u (applyTo.map Int.ofNat))) h4
      (Rng.Yields.lift hnew)
    simpa using h5
  · rw [hl] at h
    obtain ⟨j, rfl, hj⟩ := h
    simp only
    have hpos : 0 < lists.length := by
      rcases lists with _ | _
      · simp at hj
      · simp
    refine Rng.Yields.bind (us := []) (us' := []) (ns' := []) (Rng.Yields.choice hpos j) ?_
    rw [hj]
    exact Rng.Yields.lift hnew

theorem usable_iff {p : Primitive} : usable p = true ↔ p.allowedApplyTo ≠ some [] := by
  unfold usable
  rcases p.allowedApplyTo with _ | _ | ⟨x, l⟩ <;> simp

theorem filter_usable (prims : List Primitive) : prims.filter usable = placeable prims := by
  unfold placeable
  refine List.filter_congr fun p _ => ?_
  rw [Bool.eq_iff_iff, usable_iff, decide_eq_true_eq]

/-- A random gate as a function of the draws. -/
theorem createRandomEntryVal_yields {τ : Arith} {D : ℕ} {prims : List Primitive} {probs : Option (List ℝ)}
    {us0 us : List (Set.Ico (0 : ℝ) 1)} {ns0 ns : List (ℕ × ℕ)} {i : ℕ} {p : Primitive} {u : Unitary} {qs : List ℕ}
    (hc : Rng.Yields (Rng.choiceOpt (placeable prims).length probs) us0 ns0 i)
    (hi : (placeable prims)[i]? = some p) (hu : p.DrawsUnitary τ us u) (hq : p.DrawsQubits (intLog2 D) ns qs)
    (h1 : qs.Nodup) (h2 : 2 ^ qs.length = u.getDimension) (h3 : qs ≠ []) :
    Rng.Yields (createRandomEntryVal τ D prims probs) (us0 ++ us) (ns0 ++ ns) ⟨u, qs⟩ := by
  rw [createRandomEntryVal_eq, filter_usable]
  refine hc.bind ?_
  rw [hi]
  have := Rng.Yields.bind (f := fun u => pickQubits (intLog2 D) p u) (pickUnitary_yields hu)
    (pickQubits_yields hq h1 h2 h3)
  simpa using this

end Stoq
