import Verif.Proofs.LawGates

/-!
# Lower bounds for probabilities of programs with continuous draws

Programs that draw real numbers do not have a discrete distribution.  For lower bounds of probabilities it suffices to
know that a program reaches a set of results with at least some probability, independently of the rest of the tape.
The sets of tapes need not be measurable: a measure of an arbitrary set is the infimum over larger measurable sets.
-/

namespace Stoq

open MeasureTheory ProbabilityTheory

namespace Rng

variable {B : ℕ} {α β : Type}

/-- The program can return `a`. -/
def Result (m : PyM Rng α) (a : α) : Prop := ∃ r r', m r = (.ok a, r')

/-- The tapes on which the program returns some `a` and leaves a tape of `S a`. -/
def after (m : PyM Rng α) (S : α → Set Tape) : Set Tape :=
  {t | ∀ r : Rng, r.rest = t → ∃ a r', m r = (.ok a, r') ∧ r'.rest ∈ S a}

/-- The program reaches `Q` with probability at least `p` and never raises an exception: if the rest of the tape leads
to a goal with probability at least `y` from `Q`, and at least `x` from elsewhere, then the whole tape does so with the
mean probability. -/
def Hits (B : ℕ) (m : PyM Rng α) (Q : α → Prop) (p : ℝ) : Prop :=
  ∀ (S : α → Set Tape) (x y : ℝ), 0 ≤ x → x ≤ y → y ≤ 1 → (∀ a, ENNReal.ofReal x ≤ tapes B (S a)) →
    (∀ a, Q a → ENNReal.ofReal y ≤ tapes B (S a)) → ENNReal.ofReal (p * y + (1 - p) * x) ≤ tapes B (after m S)

/-- The program never raises an exception, and what it leaves of the tape is not worse than before. -/
def Total (B : ℕ) (m : PyM Rng α) : Prop := Hits B m (fun _ => False) 0

/-- Put a real number in front. -/
def consUnif (u : Set.Ico (0 : ℝ) 1) (t : Tape) : Tape := (fun i => if i = 0 then u else t.1 (i - 1), t.2)

/-- Put an integer in front. -/
def consNat (k : ℕ) (t : Tape) : Tape := (t.1, fun i => if i = 0 then k else t.2 (i - 1))

theorem measurable_consUnif : Measurable fun p : Set.Ico (0 : ℝ) 1 × Tape => consUnif p.1 p.2 := by
  refine Measurable.prodMk (measurable_pi_lambda _ fun i => ?_) (by fun_prop)
  by_cases h : i = 0
  · simp only [h, if_true]; fun_prop
  · simp only [h, if_false]; fun_prop

theorem measurable_consNat : Measurable fun p : ℕ × Tape => consNat p.1 p.2 := by
  refine Measurable.prodMk (by fun_prop) (measurable_pi_lambda _ fun i => ?_)
  by_cases h : i = 0
  · simp only [h, if_true]; fun_prop
  · simp only [h, if_false]; fun_prop

theorem consUnif_uncons (t : Tape) : consUnif (t.1 0) (t.drop (1, 0)) = t := by
  refine Prod.ext (funext fun i => ?_) (funext fun i => ?_)
  · by_cases h : i = 0
    · simp [consUnif, h]
    · simp only [consUnif, Tape.drop, h, if_false]
      rw [show 1 + (i - 1) = i by omega]
  · simp [consUnif, Tape.drop]

theorem consNat_uncons (t : Tape) : consNat (t.2 0) (t.drop (0, 1)) = t := by
  refine Prod.ext (funext fun i => ?_) (funext fun i => ?_)
  · simp [consNat, Tape.drop]
  · by_cases h : i = 0
    · simp [consNat, h]
    · simp only [consNat, Tape.drop, h, if_false]
      rw [show 1 + (i - 1) = i by omega]

theorem lintegral_le_unif {E : Set Tape} {g : Set.Ico (0 : ℝ) 1 → ENNReal}
    (h : ∀ u, g u ≤ tapes B {t | consUnif u t ∈ E}) : ∫⁻ u, g u ∂uniformUnit ≤ tapes B E := by
  set H := toMeasurable (tapes B) E with hH
  have hm : MeasurableSet H := measurableSet_toMeasurable _ _
  have hψ : MeasurableSet ((fun p : Set.Ico (0 : ℝ) 1 × Tape => consUnif p.1 p.2) ⁻¹' H) := measurable_consUnif hm
  have h1 : tapes B E = tapes B H := (measure_toMeasurable E).symm
  have h2 : H = (fun t : Tape => (t.1 0, t.drop (1, 0))) ⁻¹'
      ((fun p : Set.Ico (0 : ℝ) 1 × Tape => consUnif p.1 p.2) ⁻¹' H) := by
    ext t
    simp only [Set.mem_preimage, consUnif_uncons]
  rw [h1, h2, measurePreserving_unif.measure_preimage hψ.nullMeasurableSet, Measure.prod_apply hψ]
  exact lintegral_mono fun u => (h u).trans (measure_mono fun t ht => subset_toMeasurable _ _ ht)

theorem lintegral_le_nat {E : Set Tape} {g : ℕ → ENNReal}
    (h : ∀ u, g u ≤ tapes B {t | consNat u t ∈ E}) : ∫⁻ u, g u ∂uniformNat B ≤ tapes B E := by
  set H := toMeasurable (tapes B) E with hH
  have hm : MeasurableSet H := measurableSet_toMeasurable _ _
  have hψ : MeasurableSet ((fun p : ℕ × Tape => consNat p.1 p.2) ⁻¹' H) := measurable_consNat hm
  have h1 : tapes B E = tapes B H := (measure_toMeasurable E).symm
  have h2 : H = (fun t : Tape => (t.2 0, t.drop (0, 1))) ⁻¹' ((fun p : ℕ × Tape => consNat p.1 p.2) ⁻¹' H) := by
    ext t
    simp only [Set.mem_preimage, consNat_uncons]
  rw [h1, h2, measurePreserving_nat.measure_preimage hψ.nullMeasurableSet, Measure.prod_apply hψ]
  exact lintegral_mono fun u => (h u).trans (measure_mono fun t ht => subset_toMeasurable _ _ ht)

/-- The mean of a function with two values. -/
theorem le_lintegral_two {X : Type} [MeasurableSpace X] (μ : Measure X) [IsProbabilityMeasure μ] {A : Set X}
    (hA : MeasurableSet A) {p x y : ℝ} (hp : μ.real A = p) (hx : 0 ≤ x) (hy : 0 ≤ y) :
    ENNReal.ofReal (p * y + (1 - p) * x) ≤
      ∫⁻ u, (open Classical in if u ∈ A then ENNReal.ofReal y else ENNReal.ofReal x) ∂μ := by
  classical
  have h1 := lintegral_add_compl (μ := μ)
    (fun u => (open Classical in if u ∈ A then ENNReal.ofReal y else ENNReal.ofReal x)) hA
  rw [setLIntegral_congr_fun (g := fun _ => ENNReal.ofReal y) hA fun u hu => if_pos hu,
    setLIntegral_congr_fun (g := fun _ => ENNReal.ofReal x) hA.compl fun u hu => if_neg hu, setLIntegral_const,
    setLIntegral_const] at h1
  rw [← h1]
  have e1 : μ A = ENNReal.ofReal p := by rw [← hp, ofReal_measureReal]
  have e2 : μ Aᶜ = ENNReal.ofReal (1 - p) := by
    rw [← hp, ← probReal_compl_eq_one_sub hA, ofReal_measureReal]
  have hp0 : 0 ≤ p := by rw [← hp]; exact measureReal_nonneg
  have hp1 : p ≤ 1 := by rw [← hp]; exact measureReal_le_one
  rw [e1, e2, ENNReal.ofReal_add (by positivity) (mul_nonneg (by linarith) hx), ENNReal.ofReal_mul hp0,
    ENNReal.ofReal_mul (by linarith), mul_comm (ENNReal.ofReal p), mul_comm (ENNReal.ofReal (1 - p))]

theorem Hits.mono {m : PyM Rng α} {Q Q' : α → Prop} {p p' : ℝ} (h : Hits B m Q p) (hQ : ∀ a, Result m a → Q a → Q' a)
    (hp : p' ≤ p) : Hits B m Q' p' := by
  intro S x y h0 h1 h2 hx hy
  classical
  have h3 := h (fun a => {t | Result m a → t ∈ S a}) x y h0 h1 h2 (fun a => ?_) (fun a ha => ?_)
  · refine le_trans (ENNReal.ofReal_le_ofReal ?_) (h3.trans (measure_mono fun t ht r hr => ?_))
    · nlinarith
    · obtain ⟨a, r', e1, e2⟩ := ht r hr
      exact ⟨a, r', e1, e2 ⟨r, r', e1⟩⟩
  · exact (hx a).trans (measure_mono fun t ht _ => ht)
  · by_cases hr : Result m a
    · exact (hy a (hQ a hr ha)).trans (measure_mono fun t ht _ => ht)
    · have : {t : Tape | Result m a → t ∈ S a} = Set.univ := Set.eq_univ_of_forall fun t h' => absurd h' hr
      rw [this, measure_univ]
      exact ENNReal.ofReal_le_one.mpr h2

theorem Hits.total {m : PyM Rng α} {Q : α → Prop} {p : ℝ} (h : Hits B m Q p) : Total B m := by
  intro S x y h0 h1 h2 hx hy
  have h3 := h S x x h0 le_rfl (h1.trans h2) hx (fun a _ => hx a)
  refine le_trans (ENNReal.ofReal_le_ofReal (le_of_eq (by ring))) h3

theorem Total.hits {m : PyM Rng α} (h : Total B m) {Q : α → Prop} (hQ : ∀ a, Result m a → Q a) : Hits B m Q 1 := by
  intro S x y h0 h1 h2 hx hy
  have h3 := h (fun a => {t | Result m a → t ∈ S a}) y y (h0.trans h1) le_rfl h2 (fun a => ?_) (fun a ha => ha.elim)
  · refine le_trans (ENNReal.ofReal_le_ofReal (le_of_eq (by ring))) (h3.trans (measure_mono fun t ht r hr => ?_))
    obtain ⟨a, r', e1, e2⟩ := ht r hr
    exact ⟨a, r', e1, e2 ⟨r, r', e1⟩⟩
  · by_cases hr : Result m a
    · exact (hy a (hQ a hr)).trans (measure_mono fun t ht _ => ht)
    · have : {t : Tape | Result m a → t ∈ S a} = Set.univ := Set.eq_univ_of_forall fun t h' => absurd h' hr
      rw [this, measure_univ]
      exact ENNReal.ofReal_le_one.mpr h2

theorem Hits.bind {m : PyM Rng α} {k : α → PyM Rng β} {Q : α → Prop} {Q' : β → Prop} {p q : ℝ} (hm : Hits B m Q p)
    (hq0 : 0 ≤ q) (hq1 : q ≤ 1) (hk : ∀ a, Result m a → Q a → Hits B (k a) Q' q)
    (ht : ∀ a, Result m a → Total B (k a)) : Hits B (m >>= k) Q' (p * q) := by
  intro S x y h0 h1 h2 hx hy
  have h3 := hm (fun a => {t | Result m a → t ∈ after (k a) S}) x (q * y + (1 - q) * x) h0 (by nlinarith) (by nlinarith)
    (fun a => ?_) (fun a ha => ?_)
  · refine le_trans (ENNReal.ofReal_le_ofReal (le_of_eq (by ring))) (h3.trans (measure_mono fun t ht r hr => ?_))
    obtain ⟨a, r', e1, e2⟩ := ht r hr
    obtain ⟨b, r'', e3, e4⟩ := e2 ⟨r, r', e1⟩ r' rfl
    exact ⟨b, r'', by rw [PyM.bind_of_ok e1, e3], e4⟩
  · by_cases hr : Result m a
    · refine le_trans (le_of_eq ?_) ((ht a hr S x x h0 le_rfl (h1.trans h2) hx (fun a ha => ha.elim)).trans
        (measure_mono fun t ht _ => ht))
      congr 1
      ring
    · have : {t : Tape | Result m a → t ∈ after (k a) S} = Set.univ := Set.eq_univ_of_forall fun t h' => absurd h' hr
      rw [this, measure_univ]
      exact ENNReal.ofReal_le_one.mpr (h1.trans h2)
  · by_cases hr : Result m a
    · exact (hk a hr ha S x y h0 h1 h2 hx hy).trans (measure_mono fun t ht _ => ht)
    · have : {t : Tape | Result m a → t ∈ after (k a) S} = Set.univ := Set.eq_univ_of_forall fun t h' => absurd h' hr
      rw [this, measure_univ]
      exact ENNReal.ofReal_le_one.mpr (by nlinarith)

theorem Total.bind {m : PyM Rng α} {k : α → PyM Rng β} (hm : Total B m) (ht : ∀ a, Result m a → Total B (k a)) :
    Total B (m >>= k) := by
  have := Hits.bind (Q := fun _ => False) (Q' := fun _ => False) (q := 0) hm le_rfl zero_le_one (fun a _ h => h.elim) ht
  rw [mul_zero] at this
  exact this

theorem Hits.pure {a : α} {Q : α → Prop} (h : Q a) : Hits B (Pure.pure a) Q 1 := by
  intro S x y h0 h1 h2 hx hy
  rw [one_mul, sub_self, zero_mul, add_zero]
  refine (hy a h).trans (measure_mono fun t ht r hr => ⟨a, r, rfl, ?_⟩)
  rw [hr]
  exact ht

theorem Total.pure (a : α) : Total B (Pure.pure a : PyM Rng α) := (Hits.pure (Q := fun _ => True) trivial).total

theorem Hits.lift {e : Except PyErr α} {a : α} (he : e = .ok a) {Q : α → Prop} (h : Q a) : Hits B (PyM.lift e) Q 1 := by
  rw [he]
  exact Hits.pure h

theorem Hits.map {m : PyM Rng α} {f : α → β} {Q : α → Prop} {Q' : β → Prop} {p : ℝ} (hm : Hits B m Q p)
    (hf : ∀ a, Result m a → Q a → Q' (f a)) : Hits B (do let a ← m; return f a) Q' p := by
  have := hm.bind (k := fun a => Pure.pure (f a)) zero_le_one le_rfl (fun a hr ha => Hits.pure (hf a hr ha))
    (fun a _ => Total.pure (f a))
  rwa [mul_one] at this

theorem Hits.randomSample {A : Set (Set.Ico (0 : ℝ) 1)} (hA : MeasurableSet A) :
    Hits B Rng.randomSample (fun v => ∃ u ∈ A, (u : ℝ) = v) (uniformUnit.real A) := by
  classical
  intro S x y h0 h1 h2 hx hy
  refine (le_lintegral_two uniformUnit hA rfl h0 (h0.trans h1)).trans (lintegral_le_unif fun u => ?_)
  have hsub : S u ⊆ {t | consUnif u t ∈ after Rng.randomSample S} := by
    intro t ht r hr
    refine ⟨(r.unif r.upos : ℝ), _, rfl, ?_⟩
    have e1 : r.unif r.upos = u := by
      have := congrFun (congrArg Prod.fst hr) 0
      simpa [rest, consUnif] using this
    have e2 : ({ r with upos := r.upos + 1 } : Rng).rest = t := by
      refine Prod.ext (funext fun i => ?_) (funext fun i => ?_)
      · have := congrFun (congrArg Prod.fst hr) (i + 1)
        simp only [rest, consUnif, Nat.add_one_ne_zero, if_false, Nat.add_sub_cancel] at this
        rw [← this]
        simp only [rest]
        congr 1
        omega
      · exact congrFun (congrArg Prod.snd hr) i
    rw [e2, e1]
    exact ht
  refine le_trans ?_ (measure_mono hsub)
  split
  · next h => exact hy _ ⟨u, h, rfl⟩
  · exact hx _

theorem Total.randomSample : Total B Rng.randomSample := (Hits.randomSample MeasurableSet.empty).total

theorem Hits.randBelow {n : ℕ} (hB : n ≤ B) {i : ℕ} (hi : i < n) : Hits B (Rng.randBelow n) (· = i) (1 / n) := by
  classical
  intro S x y h0 h1 h2 hx hy
  have hm : MeasurableSet {k : ℕ | k % n = i} := MeasurableSet.of_discrete
  have hp : (uniformNat B).real {k : ℕ | k % n = i} = 1 / n := by
    rw [Measure.real, HasLaw.uniformNat_mod (by omega) hB hi]
    simp
  refine (le_lintegral_two (uniformNat B) hm hp h0 (h0.trans h1)).trans (lintegral_le_nat fun u => ?_)
  have hsub : S (u % n) ⊆ {t | consNat u t ∈ after (Rng.randBelow n) S} := by
    intro t ht r hr
    refine ⟨r.nat r.npos % n, _, rfl, ?_⟩
    have e1 : r.nat r.npos = u := by
      have := congrFun (congrArg Prod.snd hr) 0
      simpa [rest, consNat] using this
    have e2 : ({ r with npos := r.npos + 1 } : Rng).rest = t := by
      refine Prod.ext (funext fun i => ?_) (funext fun i => ?_)
      · exact congrFun (congrArg Prod.fst hr) i
      · have := congrFun (congrArg Prod.snd hr) (i + 1)
        simp only [rest, consNat, Nat.add_one_ne_zero, if_false, Nat.add_sub_cancel] at this
        rw [← this]
        simp only [rest]
        congr 1
        omega
    rw [e2, e1]
    exact ht
  refine le_trans ?_ (measure_mono hsub)
  split
  · next h => exact hy _ h
  · exact hx _

theorem Total.randBelow {n : ℕ} (h0 : 0 < n) (hB : n ≤ B) : Total B (Rng.randBelow n) := (Hits.randBelow hB h0).total

theorem Hits.choice {n : ℕ} (hB : n ≤ B) {i : ℕ} (hi : i < n) : Hits B (Rng.choice n) (· = i) (1 / n) := by
  have e : Rng.choice n = Rng.randBelow n := by
    unfold Rng.choice
    rw [raiseUnless_of (by omega)]
    rfl
  rw [e]
  exact Hits.randBelow hB hi

theorem Hits.choiceOpt_some {n : ℕ} {p : List ℝ} (hp : ValidP n p) {i : ℕ} (hi : i < p.length) :
    Hits B (Rng.choiceOpt n (some p)) (· = i) (p[i] / p.sum) := by
  obtain ⟨h1, h2⟩ := uniformUnit_chosenBy hp hi
  have h3 := (Hits.randomSample (B := B) h1).map (f := fun u => searchsortedRight ((cumsum p).map (· / p.sum)) u)
    (Q' := (· = i)) (by
      rintro _ - ⟨u, hu, rfl⟩
      exact (chosenBy_iff hp u).mp hu)
  rw [h2] at h3
  have e : Rng.choiceOpt n (some p) =
      (do let a ← Rng.randomSample; return searchsortedRight ((cumsum p).map (· / p.sum)) a) := by
    funext r
    exact choiceP_eq hp r
  rw [e]
  exact h3

theorem choice_result {n i : ℕ} (h : Result (Rng.choice n) i) : i < n := by
  obtain ⟨r, r', h⟩ := h
  by_cases hn : 0 < n
  · obtain ⟨j, h1, h2⟩ := Rng.choice_ok hn r
    rw [h1] at h
    cases h
    exact h2
  · unfold Rng.choice at h
    rw [PyM.bind_eq_ok_iff] at h
    obtain ⟨a, r1, h, -⟩ := h
    rw [PyM.lift_eq_ok_iff] at h
    unfold raiseUnless at h
    simp [hn] at h

theorem Total.choice {n : ℕ} (h0 : 0 < n) (hB : n ≤ B) : Total B (Rng.choice n) := (Hits.choice hB h0).total

/-- Swapping corresponding elements. -/
theorem swapAt_forall₂ {N : α → β → Prop} {l : List α} {l' : List β} (h : List.Forall₂ N l l') (i j : ℕ) :
    List.Forall₂ N (swapAt l i j) (swapAt l' i j) := by
  have hset : ∀ {l : List α} {l' : List β}, List.Forall₂ N l l' → ∀ i a b, N a b →
      List.Forall₂ N (l.set i a) (l'.set i b) := by
    intro l l' h
    induction h with
    | nil => intro i a b _; exact .nil
    | cons h1 _ ih =>
      intro i a b hab
      cases i with
      | zero => exact .cons hab (by assumption)
      | succ i => exact .cons h1 (ih i a b hab)
  have hget : ∀ i : ℕ, (l[i]? = none ∧ l'[i]? = none) ∨ ∃ a b, l[i]? = some a ∧ l'[i]? = some b ∧ N a b := by
    intro i
    have hl := h.length_eq
    by_cases hi : i < l.length
    · right
      exact ⟨l[i], l'[i]'(by omega), List.getElem?_eq_getElem hi, List.getElem?_eq_getElem (by omega),
        h.get hi (by omega)⟩
    · left
      exact ⟨List.getElem?_eq_none (by omega), List.getElem?_eq_none (by omega)⟩
  unfold swapAt
  rcases hget i with ⟨e1, e2⟩ | ⟨a, b, e1, e2, h1⟩
  · rw [e1, e2]; exact h
  rcases hget j with ⟨e3, e4⟩ | ⟨c, d, e3, e4, h2⟩
  · rw [e1, e2, e3, e4]; exact h
  · rw [e1, e2, e3, e4]
    exact hset (hset h _ _ _ h2) _ _ _ h1

/-- A shuffle reaches every order it can reach; corresponding lists are shuffled in corresponding ways. -/
theorem Hits.shuffleFrom {N : α → α → Prop} : ∀ (i : ℕ) {l l1 : List α}, i + 1 ≤ B → Result (Rng.shuffleFrom i l) l1 →
    ∃ p : ℝ, 0 < p ∧ p ≤ 1 ∧ ∀ l', List.Forall₂ N l l' →
      Hits B (Rng.shuffleFrom i l') (fun l1' => List.Forall₂ N l1 l1') p
  | 0, l, l1, _, ⟨r, r', h⟩ => by
    cases h
    exact ⟨1, one_pos, le_rfl, fun l' hN => Hits.pure hN⟩
  | i + 1, l, l1, hB, ⟨r, r', h⟩ => by
    unfold Rng.shuffleFrom at h
    rw [PyM.bind_eq_ok_iff] at h
    obtain ⟨j, r1, hj, h⟩ := h
    have hj' : j < i + 2 := by
      cases hj
      exact Nat.mod_lt _ (by omega)
    have tot : ∀ (i : ℕ) (l : List α), i + 1 ≤ B → Total B (Rng.shuffleFrom i l) := by
      intro i
      induction i with
      | zero => intro l _; exact Total.pure l
      | succ i ih => intro l hB; exact (Total.randBelow (by omega) (by omega)).bind fun a _ => ih _ (by omega)
    obtain ⟨p, h1, h2, h3⟩ := Hits.shuffleFrom i (by omega) ⟨r1, r', h⟩
    have h4 := fun l' (hN : List.Forall₂ N l l') => (Hits.randBelow (B := B) (n := i + 2) (by omega) hj').bind
      (k := fun j => Rng.shuffleFrom i (swapAt l' (i + 1) j))
      h1.le h2 (by rintro a - rfl; exact h3 _ (swapAt_forall₂ hN (i + 1) a)) (fun a _ => tot i _ (by omega))
    refine ⟨1 / ((i + 2 : ℕ) : ℝ) * p, by positivity, ?_, h4⟩
    refine mul_le_one₀ ?_ h1.le h2
    rw [div_le_one (by positivity)]
    push_cast
    linarith [Nat.cast_nonneg (α := ℝ) i]

theorem Hits.shuffle {N : α → α → Prop} {l l1 : List α} (hB : l.length ≤ B) (hB1 : 1 ≤ B) (h : Result (Rng.shuffle l) l1) :
    ∃ p : ℝ, 0 < p ∧ p ≤ 1 ∧ ∀ l', List.Forall₂ N l l' →
      Hits B (Rng.shuffle l') (fun l1' => List.Forall₂ N l1 l1') p := by
  unfold Rng.shuffle at h ⊢
  obtain ⟨p, h1, h2, h3⟩ := Hits.shuffleFrom (N := N) (B := B) _ (by omega) h
  refine ⟨p, h1, h2, fun l' hN => ?_⟩
  rw [← hN.length_eq]
  exact h3 l' hN

theorem Total.shuffle {l : List α} (hB : l.length ≤ B) (hB1 : 1 ≤ B) : Total B (Rng.shuffle l) := by
  obtain ⟨l1, r', h1, -⟩ := Rng.shuffle_perm l (Rng.start (fun _ => ⟨0, by simp⟩, fun _ => 0))
  obtain ⟨p, -, -, h⟩ := Hits.shuffle (N := fun _ _ => True) hB hB1 ⟨_, r', h1⟩
  exact (h l (List.forall₂_same.mpr fun _ _ => trivial)).total

end Rng

end Stoq
