import Verif.Proofs.Hits

/-!
# Programs that depend measurably on the random numbers

A program may draw real numbers, and what it returns may contain parts that no later decision depends on, such as names.
So only a function `κ` of the result is asked to be measurable.  The program depends on a context `γ`, which contains
what it was given and what was drawn before.
-/

namespace Stoq

open MeasureTheory

namespace Rng

variable {γ δ X Y α β : Type} [MeasurableSpace γ] [MeasurableSpace δ] [MeasurableSpace X] [MeasurableSpace Y]

/-- The value of a result, and `x` in place of an exception. -/
def valueOr (x : X) (κ : α → X) : Except PyErr α → X
  | .ok a => κ a
  | .error _ => x

/-- Whether the program raises an exception, how many random numbers it takes, and `κ` of its result are measurable
functions of the context and the tape. -/
def Meas (κ : α → X) (m : γ → PyM Rng α) : Prop :=
  ∃ (f : γ × Tape → Except PyErr α) (used : γ × Tape → ℕ × ℕ),
    (∀ c r, m c r = (f (c, r.rest), r.skip (used (c, r.rest)).1 (used (c, r.rest)).2)) ∧
      Measurable (fun p => (f p).isOk) ∧ Measurable used ∧ ∀ x, Measurable fun p => valueOr x κ (f p)

theorem measurable_drop : Measurable fun p : Tape × (ℕ × ℕ) => p.1.drop p.2 := by
  refine measurable_from_prod_countable_left fun n => ?_
  exact Measurable.prodMk (measurable_pi_lambda _ fun i => (measurable_pi_apply (n.1 + i)).comp measurable_fst)
    (measurable_pi_lambda _ fun i => (measurable_pi_apply (n.2 + i)).comp measurable_snd)

theorem Meas.congr {κ : α → X} {m m' : γ → PyM Rng α} (h : Meas κ m) (e : ∀ c, m' c = m c) : Meas κ m' := by
  rw [show m' = m from funext e]; exact h

theorem Meas.comp {κ : α → X} {m : γ → PyM Rng α} (h : Meas κ m) {g : δ → γ} (hg : Measurable g) :
    Meas κ fun d => m (g d) := by
  obtain ⟨f, u, h1, h2, h3, h4⟩ := h
  have hG : Measurable fun p : δ × Tape => (g p.1, p.2) := (hg.comp measurable_fst).prodMk measurable_snd
  exact ⟨fun p => f (g p.1, p.2), fun p => u (g p.1, p.2), fun c r => h1 _ _, h2.comp hG, h3.comp hG,
    fun x => (h4 x).comp hG⟩

theorem Meas.lift {κ : α → X} {e : γ → Except PyErr α} (h1 : Measurable fun c => (e c).isOk)
    (h2 : ∀ x, Measurable fun c => valueOr x κ (e c)) : Meas κ fun c => PyM.lift (e c) :=
  ⟨fun p => e p.1, fun _ => (0, 0), fun _ _ => rfl, h1.comp measurable_fst, measurable_const,
    fun x => (h2 x).comp measurable_fst⟩

theorem Meas.pure {κ : α → X} {g : γ → α} (h : Measurable fun c => κ (g c)) :
    Meas κ fun c => (Pure.pure (g c) : PyM Rng α) :=
  (Meas.lift (e := fun c => .ok (g c)) measurable_const fun _ => h).congr fun _ => rfl

theorem Meas.const {κ : α → X} (e : Except PyErr α) : Meas κ fun _ : γ => PyM.lift e :=
  Meas.lift measurable_const fun _ => measurable_const

theorem Meas.raise {κ : α → X} (e : PyErr) : Meas κ fun _ : γ => (PyM.raise e : PyM Rng α) :=
  (Meas.const (κ := κ) (.error e)).congr fun _ => rfl

theorem Meas.bind_of {κ : α → X} {κ' : β → Y} {m : γ → PyM Rng α} {k : γ → α → PyM Rng β} (hm : Meas κ m)
    {Q : α → Prop} {a₀ : α} (h0 : Q a₀) (hQ : ∀ c a, Result (m c) a → Q a)
    (hk : ∀ g : γ × Tape → α, (∀ p, Q (g p)) → Measurable (fun p => κ (g p)) → Meas κ' fun p : γ × Tape => k p.1 (g p)) :
    Meas κ' fun c => m c >>= k c := by
  obtain ⟨f, u, h1, h2, h3, h4⟩ := hm
  let g : γ × Tape → α := fun p => match f p with
    | .ok a => a
    | .error _ => a₀
  have hg : ∀ p a, f p = .ok a → g p = a := fun p a h => by simp only [g, h]
  have hgm : Measurable fun p => κ (g p) := by
    have : (fun p => κ (g p)) = fun p => valueOr (κ a₀) κ (f p) := by
      funext p
      simp only [g]
      cases f p <;> rfl
    rw [this]
    exact h4 _
  have hgQ : ∀ p, Q (g p) := by
    rintro ⟨c, t⟩
    rcases hf : f (c, t) with e | a
    · simp only [g, hf]; exact h0
    · rw [hg _ _ hf]
      exact hQ c a ⟨start t, _, by rw [h1, rest_start, hf]⟩
  obtain ⟨f', u', k1, k2, k3, k4⟩ := hk g hgQ hgm
  have hG : Measurable fun p : γ × Tape => (p, p.2.drop (u p)) :=
    measurable_id.prodMk (measurable_drop.comp (measurable_snd.prodMk h3))
  refine ⟨fun p => match f p with
      | .ok _ => f' (p, p.2.drop (u p))
      | .error e => .error e, fun p => if (f p).isOk then u p + u' (p, p.2.drop (u p)) else u p, fun c r => ?_, ?_, ?_, ?_⟩
  · rcases hf : f (c, r.rest) with e | a
    · have h5 := h1 c r
      rw [hf] at h5
      simp only [hf, Except.isOk, Except.toBool, Bind.bind, h5]
      rfl
    · have h5 := h1 c r
      rw [hf] at h5
      have := k1 (c, r.rest) (r.skip (u (c, r.rest)).1 (u (c, r.rest)).2)
      dsimp only at this
      rw [hg _ _ hf, rest_skip] at this
      simp only [hf, Except.isOk, Except.toBool, if_true]
      rw [PyM.bind_of_ok h5, this, skip_skip]
      rfl
  · have : (fun p => (match f p with
      | .ok _ => f' (p, p.2.drop (u p))
      | .error e => .error e : Except PyErr β).isOk) = fun p => (f p).isOk && (f' (p, p.2.drop (u p))).isOk := by
      funext p
      cases f p <;> rfl
    rw [this]
    exact (measurable_of_countable fun q : Bool × Bool => q.1 && q.2).comp (h2.prodMk (k2.comp hG))
  · refine Measurable.ite (h2 (measurableSet_singleton true)) (h3.add (k3.comp hG)) h3
  · intro x
    have : (fun p => valueOr x κ' (match f p with
      | .ok _ => f' (p, p.2.drop (u p))
      | .error e => .error e)) = fun p => if (f p).isOk then valueOr x κ' (f' (p, p.2.drop (u p))) else x := by
      funext p
      cases f p <;> rfl
    rw [this]
    exact Measurable.ite (h2 (measurableSet_singleton true)) ((k4 x).comp hG) measurable_const

theorem Meas.bind [Nonempty α] {κ : α → X} {κ' : β → Y} {m : γ → PyM Rng α} {k : γ → α → PyM Rng β} (hm : Meas κ m)
    (hk : ∀ g : γ × Tape → α, Measurable (fun p => κ (g p)) → Meas κ' fun p : γ × Tape => k p.1 (g p)) :
    Meas κ' fun c => m c >>= k c :=
  hm.bind_of (Q := fun _ => True) (a₀ := Classical.arbitrary α) trivial (fun _ _ _ => trivial) fun g _ hg => hk g hg

theorem Meas.ite {κ : α → X} {P : γ → Prop} [∀ c, Decidable (P c)] (hP : MeasurableSet {c | P c}) {m m' : γ → PyM Rng α}
    (h : Meas κ m) (h' : Meas κ m') : Meas κ fun c => if P c then m c else m' c := by
  obtain ⟨f, u, h1, h2, h3, h4⟩ := h
  obtain ⟨f', u', k1, k2, k3, k4⟩ := h'
  have hP' : MeasurableSet {p : γ × Tape | P p.1} := measurable_fst hP
  refine ⟨fun p => if P p.1 then f p else f' p, fun p => if P p.1 then u p else u' p, fun c r => ?_, ?_,
    Measurable.ite hP' h3 k3, fun x => ?_⟩
  · by_cases h : P c
    · simp only [h, if_true]; exact h1 c r
    · simp only [h, if_false]; exact k1 c r
  · have : (fun p => (if P p.1 then f p else f' p).isOk) = fun p => if P p.1 then (f p).isOk else (f' p).isOk := by
      funext p
      split_ifs <;> rfl
    rw [this]
    exact Measurable.ite hP' h2 k2
  · have : (fun p => valueOr x κ (if P p.1 then f p else f' p)) =
        fun p => if P p.1 then valueOr x κ (f p) else valueOr x κ (f' p) := by
      funext p
      split_ifs <;> rfl
    rw [this]
    exact Measurable.ite hP' (h4 x) (k4 x)

/-- Programs chosen by a number of the context. -/
theorem Meas.switch {κ : α → X} {N : γ → ℕ} (hN : Measurable N) {m : ℕ → γ → PyM Rng α} (h : ∀ i, Meas κ (m i)) :
    Meas κ fun c => m (N c) c := by
  choose f u h1 h2 h3 h4 using h
  have hG : Measurable fun p : γ × Tape => (N p.1, p) := (hN.comp measurable_fst).prodMk measurable_id
  exact ⟨fun p => f (N p.1) p, fun p => u (N p.1) p, fun c r => h1 _ c r,
    (measurable_from_prod_countable_right (f := fun q : ℕ × (γ × Tape) => (f q.1 q.2).isOk) h2).comp hG,
    (measurable_from_prod_countable_right (f := fun q : ℕ × (γ × Tape) => u q.1 q.2) h3).comp hG, fun x =>
    (measurable_from_prod_countable_right (f := fun q : ℕ × (γ × Tape) => valueOr x κ (f q.1 q.2)) fun i => h4 i x).comp hG⟩

/-- The same for other countable types. -/
theorem Meas.switch' {ι : Type} [Encodable ι] {κ : α → X} {N : γ → ι} (hN : Measurable fun c => Encodable.encode (N c))
    {m : ι → γ → PyM Rng α} (h : ∀ i, Meas κ (m i)) : Meas κ fun c => m (N c) c := by
  have := Meas.switch hN (m := fun i c => match Encodable.decode (α := ι) i with
    | some j => m j c
    | none => PyM.raise .dangling) (κ := κ) fun i => by
      cases Encodable.decode (α := ι) i with
      | none => exact Meas.raise _
      | some j => exact h j
  refine this.congr fun c => ?_
  simp only [Encodable.encodek]

theorem Meas.key {κ : α → X} {m : γ → PyM Rng α} (h : Meas κ m) [Nonempty X] {φ : X → Y} (hφ : Measurable φ) :
    Meas (fun a => φ (κ a)) m := by
  obtain ⟨f, u, h1, h2, h3, h4⟩ := h
  refine ⟨f, u, h1, h2, h3, fun y => ?_⟩
  have : (fun p => valueOr y (fun a => φ (κ a)) (f p)) =
      fun p => if (f p).isOk then φ (valueOr (Classical.arbitrary X) κ (f p)) else y := by
    funext p
    cases f p <;> rfl
  rw [this]
  exact Measurable.ite (h2 (measurableSet_singleton true)) (hφ.comp (h4 _)) measurable_const

/-- The event that the program returns a value with a measurable property of its `κ`. -/
theorem Meas.event {κ : α → X} {m : γ → PyM Rng α} (h : Meas κ m) {S : Set (γ × X)} (hS : MeasurableSet S) :
    MeasurableSet {p : γ × Tape | ∃ a r', m p.1 (start p.2) = (.ok a, r') ∧ (p.1, κ a) ∈ S} := by
  obtain ⟨f, u, h1, h2, h3, h4⟩ := h
  rcases isEmpty_or_nonempty X with hX | ⟨⟨x⟩⟩
  · have : {p : γ × Tape | ∃ a r', m p.1 (start p.2) = (.ok a, r') ∧ (p.1, κ a) ∈ S} = ∅ := by
      ext p
      simp only [Set.mem_ofPred_eq, Set.mem_empty_iff_false, iff_false]
      rintro ⟨a, -⟩
      exact hX.elim (κ a)
    rw [this]; exact .empty
  have : {p : γ × Tape | ∃ a r', m p.1 (start p.2) = (.ok a, r') ∧ (p.1, κ a) ∈ S} =
      {p | (f p).isOk = true} ∩ (fun p => (p.1, valueOr x κ (f p))) ⁻¹' S := by
    ext p
    simp only [h1, rest_start, Set.mem_ofPred_eq, Set.mem_inter_iff, Set.mem_preimage, Prod.mk.injEq]
    rcases hf : f (p.1, p.2) with e | a
    · simp [Except.isOk, Except.toBool]
    · simp only [Except.isOk, Except.toBool, valueOr, true_and, Except.ok.injEq]
      constructor
      · rintro ⟨_, _, ⟨rfl, -⟩, h⟩; exact h
      · intro h; exact ⟨a, _, ⟨rfl, rfl⟩, h⟩
  rw [this]
  exact (h2 (measurableSet_singleton true)).inter ((measurable_fst.prodMk (h4 x)) hS)

/-! ## The random numbers -/

theorem Meas.randomSample : Meas (fun x : ℝ => x) fun _ : γ => Rng.randomSample := by
  refine ⟨fun p => .ok (p.2.1 0 : ℝ), fun _ => (1, 0), fun _ _ => rfl, measurable_const, measurable_const, fun x => ?_⟩
  change Measurable fun p : γ × Tape => ((p.2.1 0 : Set.Ico (0 : ℝ) 1) : ℝ)
  fun_prop

theorem Meas.randBelow (n : ℕ) : Meas (fun x : ℕ => x) fun _ : γ => Rng.randBelow n := by
  refine ⟨fun p => .ok (p.2.2 0 % n), fun _ => (0, 1), fun _ _ => rfl, measurable_const, measurable_const, fun x => ?_⟩
  change Measurable fun p : γ × Tape => p.2.2 0 % n
  exact (measurable_from_top (f := fun k : ℕ => k % n)).comp (by fun_prop)

theorem Meas.choice (n : ℕ) : Meas (fun x : ℕ => x) fun _ : γ => Rng.choice n := by
  unfold Rng.choice
  exact (Meas.const (κ := fun _ : Unit => ()) _).bind fun _ _ => Meas.randBelow n

theorem measurable_searchsorted (cdf : List ℝ) : Measurable (Rng.searchsortedRight cdf) := by
  classical
  induction cdf with
  | nil => exact measurable_const
  | cons x l ih =>
    have : Rng.searchsortedRight (x :: l) = fun u => if x ≤ u then Rng.searchsortedRight l u + 1 else Rng.searchsortedRight l u := by
      funext u
      unfold Rng.searchsortedRight
      rw [List.filter_cons]
      by_cases h : x ≤ u <;> simp [h]
    rw [this]
    exact Measurable.ite measurableSet_Ici (ih.add_const 1) ih

theorem Meas.choiceP (n : ℕ) (p : List ℝ) : Meas (fun x : ℕ => x) fun _ : γ => Rng.choiceP n p := by
  unfold Rng.choiceP
  refine (Meas.const (κ := fun _ : Unit => ()) _).bind fun _ _ => ?_
  refine (Meas.const (κ := fun _ : Unit => ()) _).bind fun _ _ => ?_
  refine (Meas.const (κ := fun _ : Unit => ()) _).bind fun _ _ => ?_
  refine (Meas.const (κ := fun _ : Unit => ()) _).bind fun _ _ => ?_
  refine Meas.randomSample.bind fun g hg => Meas.pure ?_
  exact (measurable_searchsorted _).comp hg

theorem Meas.choiceOpt (n : ℕ) (p : Option (List ℝ)) : Meas (fun x : ℕ => x) fun _ : γ => Rng.choiceOpt n p := by
  cases p with
  | none => exact Meas.choice n
  | some p => exact Meas.choiceP n p

theorem Meas.shuffleNat (i : ℕ) : ∀ {γ : Type} [MeasurableSpace γ] (l : List ℕ),
    Meas (fun l : List ℕ => Encodable.encode l) fun _ : γ => Rng.shuffleFrom i l := by
  induction i with
  | zero => intro γ _ l; exact Meas.pure measurable_const
  | succ i ih =>
    intro γ _ l
    unfold Rng.shuffleFrom
    exact (Meas.randBelow (i + 2)).bind fun g hg =>
      Meas.switch (m := fun j _ => Rng.shuffleFrom i (swapAt l (i + 1) j)) hg fun j => ih _

theorem Meas.choiceNoReplace (n k : ℕ) :
    Meas (fun l : List ℕ => Encodable.encode l) fun _ : γ => Rng.choiceNoReplace n k := by
  unfold Rng.choiceNoReplace
  refine (Meas.const (κ := fun _ : Unit => ()) _).bind fun _ _ => ?_
  exact (Meas.shuffleNat (γ := γ × Tape) _ _).bind fun g hg =>
    Meas.switch' (κ := fun l : List ℕ => Encodable.encode l) (m := fun l _ => Pure.pure (l.take k)) hg fun l => Meas.pure measurable_const

/-! ## Lists -/

/-- The length and what `κ` says about the elements. -/
def listKey (x : X) (κ : α → X) (l : List α) : ℕ × (ℕ → X) := (l.length, fun i => (l[i]?).elim x κ)

variable {x : X} {κ : α → X}

theorem measurable_list {g : γ → List α} : Measurable (fun c => listKey x κ (g c)) ↔
    Measurable (fun c => (g c).length) ∧ ∀ i : ℕ, Measurable fun c => ((g c)[i]?).elim x κ := by
  constructor
  · intro h
    exact ⟨h.fst, fun i => measurable_pi_iff.mp h.snd i⟩
  · rintro ⟨h1, h2⟩
    exact h1.prodMk (measurable_pi_iff.mpr h2)

theorem measurable_at {g : γ → List α} (h : Measurable fun c => listKey x κ (g c)) {s : γ → ℕ} (hs : Measurable s) :
    Measurable fun c => ((g c)[s c]?).elim x κ :=
  (measurable_from_prod_countable_right (f := fun q : ℕ × γ => ((g q.2)[q.1]?).elim x κ)
    fun i => (measurable_list.mp h).2 i).comp (hs.prodMk measurable_id)

theorem measurable_nil : Measurable fun _ : γ => listKey x κ [] := measurable_const

theorem measurable_append {g g' : γ → List α} (h : Measurable fun c => listKey x κ (g c))
    (h' : Measurable fun c => listKey x κ (g' c)) : Measurable fun c => listKey x κ (g c ++ g' c) := by
  have hl := (measurable_list.mp h).1
  refine measurable_list.mpr ⟨?_, fun i => ?_⟩
  · simp only [List.length_append]
    exact hl.add (measurable_list.mp h').1
  · have : (fun c => ((g c ++ g' c)[i]?).elim x κ) = fun c => if i < (g c).length then ((g c)[i]?).elim x κ else
        ((g' c)[i - (g c).length]?).elim x κ := by
      funext c
      rw [List.getElem?_append]
      split_ifs <;> rfl
    rw [this]
    exact Measurable.ite (hl measurableSet_Ioi) ((measurable_list.mp h).2 i)
      (measurable_at h' ((measurable_from_top (f := fun k : ℕ => i - k)).comp hl))

theorem measurable_cons {v : γ → α} (hv : Measurable fun c => κ (v c)) {g : γ → List α}
    (h : Measurable fun c => listKey x κ (g c)) : Measurable fun c => listKey x κ (v c :: g c) := by
  have : Measurable fun c => listKey x κ [v c] := by
    refine measurable_list.mpr ⟨measurable_const, fun i => ?_⟩
    cases i with
    | zero => exact hv
    | succ i => exact measurable_const
  exact measurable_append this h

theorem measurable_drop_list {g : γ → List α} (h : Measurable fun c => listKey x κ (g c)) (L : ℕ) :
    Measurable fun c => listKey x κ ((g c).drop L) := by
  refine measurable_list.mpr ⟨?_, fun i => ?_⟩
  · simp only [List.length_drop]
    exact (measurable_from_top (f := fun k : ℕ => k - L)).comp (measurable_list.mp h).1
  · simp only [List.getElem?_drop]
    exact (measurable_list.mp h).2 _

theorem measurable_take {g : γ → List α} (h : Measurable fun c => listKey x κ (g c)) {s : γ → ℕ} (hs : Measurable s) :
    Measurable fun c => listKey x κ ((g c).take (s c)) := by
  have hl := (measurable_list.mp h).1
  refine measurable_list.mpr ⟨?_, fun i => ?_⟩
  · simp only [List.length_take]
    exact hs.min hl
  · have : (fun c => (((g c).take (s c))[i]?).elim x κ) = fun c => if i < s c then ((g c)[i]?).elim x κ else x := by
      funext c
      rw [List.getElem?_take]
      split_ifs <;> rfl
    rw [this]
    exact Measurable.ite (hs measurableSet_Ioi) ((measurable_list.mp h).2 i) measurable_const

theorem measurable_reverse {g : γ → List α} (h : Measurable fun c => listKey x κ (g c)) :
    Measurable fun c => listKey x κ (g c).reverse := by
  have hl := (measurable_list.mp h).1
  refine measurable_list.mpr ⟨by simpa using hl, fun i => ?_⟩
  have : (fun c => ((g c).reverse[i]?).elim x κ) = fun c => if i < (g c).length then ((g c)[(g c).length - 1 - i]?).elim x κ
      else x := by
    funext c
    split_ifs with hi
    · rw [List.getElem?_reverse hi]
    · rw [List.getElem?_eq_none (by simpa using hi)]; rfl
  rw [this]
  exact Measurable.ite (hl measurableSet_Ioi)
    (measurable_at h ((measurable_from_top (f := fun k : ℕ => k - 1 - i)).comp hl)) measurable_const

theorem swapAt_getElem? (l : List α) (i j k : ℕ) : (Rng.swapAt l i j)[k]? =
    if i < l.length ∧ j < l.length then (if k = j then l[i]? else if k = i then l[j]? else l[k]?) else l[k]? := by
  unfold Rng.swapAt
  by_cases hi : i < l.length
  · by_cases hj : j < l.length
    · rw [if_pos ⟨hi, hj⟩, List.getElem?_eq_getElem hi, List.getElem?_eq_getElem hj]
      dsimp only
      rw [List.getElem?_set, List.getElem?_set]
      simp only [List.length_set, hi, hj, if_true]
      split_ifs <;> first | rfl | omega
    · rw [if_neg (by tauto), List.getElem?_eq_none (not_lt.mp hj)]
      split <;> simp_all
  · rw [if_neg (by tauto), List.getElem?_eq_none (not_lt.mp hi)]

theorem measurable_swapAt {g : γ → List α} (h : Measurable fun c => listKey x κ (g c)) (i : ℕ) {s : γ → ℕ}
    (hs : Measurable s) : Measurable fun c => listKey x κ (Rng.swapAt (g c) i (s c)) := by
  have hl := (measurable_list.mp h).1
  refine measurable_list.mpr ⟨?_, fun k => ?_⟩
  · have : (fun c => (Rng.swapAt (g c) i (s c)).length) = fun c => (g c).length := by
      funext c
      unfold Rng.swapAt
      split <;> simp
    rw [this]
    exact hl
  · have : (fun c => ((Rng.swapAt (g c) i (s c))[k]?).elim x κ) = fun c => if i < (g c).length ∧ s c < (g c).length then
        (if k = s c then ((g c)[i]?).elim x κ else if k = i then ((g c)[s c]?).elim x κ else ((g c)[k]?).elim x κ)
        else ((g c)[k]?).elim x κ := by
      funext c
      rw [swapAt_getElem?]
      split_ifs <;> rfl
    rw [this]
    have hk := (measurable_list.mp h).2
    refine Measurable.ite ((hl measurableSet_Ioi).inter (measurableSet_lt hs hl)) ?_ (hk k)
    refine Measurable.ite (measurableSet_eq_fun measurable_const hs) (hk i) ?_
    exact Measurable.ite (MeasurableSet.const _) (measurable_at h hs) (hk k)

theorem Meas.shuffleFrom (i : ℕ) : ∀ {γ : Type} [MeasurableSpace γ] {g : γ → List α}, (Measurable fun c => listKey x κ (g c)) →
    Meas (listKey x κ) fun c => Rng.shuffleFrom i (g c) := by
  induction i with
  | zero => intro γ _ g h; exact Meas.pure h
  | succ i ih =>
    intro γ _ g h
    unfold Rng.shuffleFrom
    refine (Meas.randBelow (i + 2)).bind fun j hj => ih ?_
    exact measurable_swapAt (h.comp measurable_fst) (i + 1) hj

theorem Meas.shuffle {g : γ → List α} (h : Measurable fun c => listKey x κ (g c)) :
    Meas (listKey x κ) fun c => Rng.shuffle (g c) := by
  unfold Rng.shuffle
  exact Meas.switch (m := fun i c => Rng.shuffleFrom (i - 1) (g c)) (measurable_list.mp h).1 fun i => Meas.shuffleFrom _ h

end Rng

end Stoq
