import Verif.Spec.Law
import Verif.Proofs.Probability
import Verif.Proofs.Draws

/-! # Distributions of programs made of draws -/

namespace Stoq

open MeasureTheory ProbabilityTheory

/-- The first number and the others are independent. -/
theorem measurePreserving_uncons {X : Type} [MeasurableSpace X] (μ : Measure X) [IsProbabilityMeasure μ] :
    MeasurePreserving (fun ω : ℕ → X => (ω 0, fun i => ω (1 + i))) (Measure.infinitePi fun _ => μ)
      (μ.prod (Measure.infinitePi fun _ => μ)) := by
  have hm : Measurable (fun ω : ℕ → X => (ω 0, fun i => ω (1 + i))) := by fun_prop
  refine ⟨hm, ?_⟩
  have hc : Measurable (fun p : X × (ℕ → X) => fun i : ℕ => if i = 0 then p.1 else p.2 (i - 1)) := by
    refine measurable_pi_lambda _ fun i => ?_
    by_cases h : i = 0
    · simp only [h, if_true]; fun_prop
    · simp only [h, if_false]; fun_prop
  have h : (μ.prod (Measure.infinitePi fun _ => μ)).map
      (fun p : X × (ℕ → X) => fun i : ℕ => if i = 0 then p.1 else p.2 (i - 1)) = Measure.infinitePi fun _ => μ := by
    refine Measure.eq_infinitePi _ fun s t ht => ?_
    rw [Measure.map_apply hc (MeasurableSet.pi s.countable_toSet fun i _ => ht i)]
    have hpre : (fun p : X × (ℕ → X) => fun i : ℕ => if i = 0 then p.1 else p.2 (i - 1)) ⁻¹' (Set.pi s t) =
        (if 0 ∈ s then t 0 else Set.univ) ×ˢ
          (Set.pi ((s.erase 0).image (· - 1) : Finset ℕ) fun i => t (i + 1)) := by
      ext ⟨x, ω⟩
      simp only [Set.mem_preimage, Set.mem_pi, Set.mem_prod, Finset.mem_coe, Finset.mem_image, Finset.mem_erase]
      constructor
      · intro h
        refine ⟨?_, ?_⟩
        · split_ifs with h0
          · simpa using h 0 h0
          · trivial
        · rintro i ⟨j, ⟨hj, hjs⟩, rfl⟩
          have := h j hjs
          rw [if_neg hj] at this
          rwa [show j - 1 + 1 = j by omega]
      · rintro ⟨h1, h2⟩ i hi
        by_cases h0 : i = 0
        · subst h0; rw [if_pos hi] at h1; simpa using h1
        · have := h2 (i - 1) ⟨i, ⟨h0, hi⟩, rfl⟩
          rw [show i - 1 + 1 = i by omega] at this
          simpa [h0] using this
    rw [hpre, Measure.prod_prod, Measure.infinitePi_pi _ fun i _ => ht (i + 1),
      Finset.prod_image (by intro a ha b hb hab; simp at ha hb; dsimp at hab; omega)]
    have h2 : ∏ i ∈ s.erase 0, μ (t (i - 1 + 1)) = ∏ i ∈ s.erase 0, μ (t i) := by
      refine Finset.prod_congr rfl fun i hi => ?_
      rw [show i - 1 + 1 = i by have := Finset.ne_of_mem_erase hi; omega]
    rw [h2]
    split_ifs with h0
    · rw [Finset.mul_prod_erase s (fun i => μ (t i)) h0]
    · rw [measure_univ, one_mul, Finset.erase_eq_of_notMem h0]
  conv_lhs => rw [← h]
  rw [Measure.map_map hm hc]
  have hid : (fun ω : ℕ → X => (ω 0, fun i => ω (1 + i))) ∘
      (fun p : X × (ℕ → X) => fun i : ℕ => if i = 0 then p.1 else p.2 (i - 1)) = id := by
    funext p
    ext
    · simp
    · simp [Nat.add_comm 1]
  rw [hid, Measure.map_id]

namespace Rng

theorem rest_skip (r : Rng) (a b : ℕ) : (r.skip a b).rest = r.rest.drop (a, b) := by
  simp [rest, skip, Tape.drop, Nat.add_assoc]

theorem drop_drop (t : Tape) (a b : ℕ × ℕ) : (t.drop a).drop b = t.drop (a + b) := by
  simp [Tape.drop, Nat.add_assoc]

theorem drop_zero (t : Tape) : t.drop (0, 0) = t := by simp [Tape.drop]

theorem rest_start (t : Tape) : (start t).rest = t := by simp [start, rest]

variable {B : ℕ} {α β : Type}

theorem measurePreserving_unif : MeasurePreserving (fun t : Tape => (t.1 0, t.drop (1, 0))) (tapes B)
    (uniformUnit.prod (tapes B)) := by
  have h := (measurePreserving_uncons uniformUnit).prod
    (MeasurePreserving.id (Measure.infinitePi fun _ : ℕ => uniformNat B))
  have h2 := (measurePreserving_prodAssoc uniformUnit uniformTape (Measure.infinitePi fun _ : ℕ => uniformNat B)).comp h
  have he : (fun t : Tape => (t.1 0, t.drop (1, 0))) = MeasurableEquiv.prodAssoc ∘
      Prod.map (fun ω : ℕ → Set.Ico (0 : ℝ) 1 => (ω 0, fun i => ω (1 + i))) (id : (ℕ → ℕ) → ℕ → ℕ) := by
    funext t
    simp [Tape.drop, MeasurableEquiv.prodAssoc]
  rw [he]
  exact h2

theorem measurePreserving_nat : MeasurePreserving (fun t : Tape => (t.2 0, t.drop (0, 1))) (tapes B)
    ((uniformNat B).prod (tapes B)) := by
  have h := (MeasurePreserving.id uniformTape).prod (measurePreserving_uncons (uniformNat B))
  have h1 := (measurePreserving_prodAssoc uniformTape (uniformNat B) (Measure.infinitePi fun _ : ℕ => uniformNat B)).symm
  have h2 := (Measure.measurePreserving_swap (μ := uniformTape) (ν := uniformNat B)).prod
    (MeasurePreserving.id (Measure.infinitePi fun _ : ℕ => uniformNat B))
  have h3 := measurePreserving_prodAssoc (uniformNat B) uniformTape (Measure.infinitePi fun _ : ℕ => uniformNat B)
  have h4 := h3.comp (h2.comp (h1.comp h))
  have he : (fun t : Tape => (t.2 0, t.drop (0, 1))) = MeasurableEquiv.prodAssoc ∘
      (Prod.map Prod.swap (id : (ℕ → ℕ) → ℕ → ℕ)) ∘ MeasurableEquiv.prodAssoc.symm ∘
      Prod.map (id : (ℕ → Set.Ico (0 : ℝ) 1) → ℕ → Set.Ico (0 : ℝ) 1)
        (fun ω : ℕ → ℕ => (ω 0, fun i => ω (1 + i))) := by
    funext t
    simp [Tape.drop, MeasurableEquiv.prodAssoc]
  rw [he]
  exact h4

namespace HasLaw

theorem pure (a : α) : HasLaw B (Pure.pure a) (PMF.pure a) := by
  refine ⟨fun _ => a, fun _ => (0, 0), fun r => rfl, fun t => by simp, fun b S hS => ?_⟩
  simp only [drop_zero]
  by_cases h : a = b
  · subst h; simpa using hS
  · simp [h, PMF.pure_apply, Ne.symm h]

theorem bind {m : PyM Rng α} {k : α → PyM Rng β} {law : PMF α} {law' : α → PMF β} (hm : HasLaw B m law)
    (hk : ∀ a ∈ law.support, HasLaw B (k a) (law' a)) : HasLaw B (m >>= k) (law.bind law') := by
  obtain ⟨f, u, h1, h2, h3⟩ := hm
  have hk' : ∀ a, ∃ (g : Tape → β) (v : Tape → ℕ × ℕ), a ∈ law.support →
      (∀ r : Rng, k a r = (.ok (g r.rest), r.skip (v r.rest).1 (v r.rest).2)) ∧ (∀ t, g t ∈ (law' a).support) ∧
      ∀ b S, MeasurableSet S → MeasurableSet {t | g t = b ∧ t.drop (v t) ∈ S} ∧
        tapes B {t | g t = b ∧ t.drop (v t) ∈ S} = law' a b * tapes B S := by
    intro a
    by_cases ha : a ∈ law.support
    · obtain ⟨g, v, h⟩ := hk a ha
      exact ⟨g, v, fun _ => h⟩
    · obtain ⟨b, -⟩ := (law' a).support_nonempty
      exact ⟨fun _ => b, fun _ => (0, 0), fun h => absurd h ha⟩
  choose g v hg using hk'
  refine ⟨fun t => g (f t) (t.drop (u t)), fun t => u t + v (f t) (t.drop (u t)), fun r => ?_, fun t => ?_,
    fun b S hS => ?_⟩
  · rw [PyM.bind_of_ok (h1 r), (hg _ (h2 _)).1, rest_skip, skip_skip]
    rfl
  · rw [PMF.mem_support_bind_iff]
    exact ⟨_, h2 t, (hg _ (h2 _)).2.1 _⟩
  · have hset : {t : Tape | g (f t) (t.drop (u t)) = b ∧ t.drop (u t + v (f t) (t.drop (u t))) ∈ S} =
        ⋃ a ∈ law.support, {t | f t = a ∧ t.drop (u t) ∈ {t' | g a t' = b ∧ t'.drop (v a t') ∈ S}} := by
      ext t
      simp only [Set.mem_iUnion, Set.mem_ofPred_eq, drop_drop]
      constructor
      · intro h; exact ⟨f t, h2 t, rfl, h⟩
      · rintro ⟨a, -, rfl, h⟩; exact h
    have hmeas : ∀ a ∈ law.support,
        MeasurableSet {t | f t = a ∧ t.drop (u t) ∈ {t' | g a t' = b ∧ t'.drop (v a t') ∈ S}} := fun a ha =>
      (h3 a _ ((hg a ha).2.2 b S hS).1).1
    rw [hset]
    refine ⟨MeasurableSet.biUnion law.support_countable hmeas, ?_⟩
    rw [measure_biUnion law.support_countable ?_ hmeas]
    · have : ∀ a : law.support,
          tapes B {t | f t = a.1 ∧ t.drop (u t) ∈ {t' | g a.1 t' = b ∧ t'.drop (v a.1 t') ∈ S}} =
            law a.1 * law' a.1 b * tapes B S := by
        intro a
        rw [(h3 a.1 _ ((hg a.1 a.2).2.2 b S hS).1).2, ((hg a.1 a.2).2.2 b S hS).2, mul_assoc]
      simp only [this]
      rw [ENNReal.tsum_mul_right, PMF.bind_apply]
      congr 1
      exact tsum_subtype_eq_of_support_subset (f := fun a => law a * law' a b) fun a ha => by
        intro h0; exact ha (by simp [h0])
    · intro a _ a' _ hne
      refine Set.disjoint_left.mpr fun t h h' => hne ?_
      exact h.1.symm.trans h'.1

/-- A program that uses one real number, of which only a discrete function matters. -/
theorem sample {g : Set.Ico (0 : ℝ) 1 → α} {law : PMF α} (hs : ∀ u, g u ∈ law.support)
    (hg : ∀ a, MeasurableSet {u | g u = a}) (hl : ∀ a, uniformUnit {u | g u = a} = law a) :
    HasLaw B (fun r => (.ok (g (r.unif r.upos)), r.skip 1 0)) law := by
  refine ⟨fun t => g (t.1 0), fun _ => (1, 0), fun r => rfl, fun t => hs _, fun a S hS => ?_⟩
  have hp : {t : Tape | g (t.1 0) = a ∧ t.drop (1, 0) ∈ S} =
      (fun t : Tape => (t.1 0, t.drop (1, 0))) ⁻¹' ({u | g u = a} ×ˢ S) := rfl
  rw [hp]
  refine ⟨(measurePreserving_unif (B := B)).measurable ((hg a).prod hS), ?_⟩
  rw [measurePreserving_unif.measure_preimage ((hg a).prod hS).nullMeasurableSet, Measure.prod_prod, hl]

theorem uniformNat_mod {n : ℕ} (hn : 0 < n) (hB : n ≤ B) {a : ℕ} (ha : a < n) :
    uniformNat B {x | x % n = a} = (n : ENNReal)⁻¹ := by
  obtain ⟨q, hq⟩ := Nat.dvd_factorial hn hB
  have hq0 : q ≠ 0 := by
    rintro rfl
    exact B.factorial_ne_zero hq
  classical
  unfold uniformNat
  rw [PMF.toMeasure_uniformOfFinset_apply _ _ MeasurableSet.of_discrete]
  have hcard : ((Finset.range B.factorial).filter (· ∈ {x | x % n = a})).card = q := by
    have : (Finset.range B.factorial).filter (· ∈ {x | x % n = a}) = (Finset.range q).image (fun j => a + n * j) := by
      ext x
      simp only [Finset.mem_filter, Finset.mem_range, Set.mem_ofPred_eq, Finset.mem_image, hq]
      constructor
      · rintro ⟨h1, h2⟩
        exact ⟨x / n, Nat.div_lt_of_lt_mul h1, by rw [← h2]; exact Nat.mod_add_div x n⟩
      · rintro ⟨j, hj, rfl⟩
        refine ⟨?_, by simp [Nat.mod_eq_of_lt ha]⟩
        calc a + n * j < n + n * j := by omega
          _ = n * (j + 1) := by ring
          _ ≤ n * q := Nat.mul_le_mul_left _ hj
    rw [this, Finset.card_image_of_injective _ fun x y hxy => ?_, Finset.card_range]
    have : n * x = n * y := by simpa using hxy
    exact Nat.eq_of_mul_eq_mul_left hn this
  rw [show (_ : Finset ℕ).card = q by convert hcard, Finset.card_range, hq]
  push_cast
  have h1 : (q : ENNReal) ≠ 0 := by exact_mod_cast hq0
  have h2 : (q : ENNReal) ≠ ⊤ := ENNReal.natCast_ne_top q
  rw [ENNReal.div_eq_inv_mul, ENNReal.mul_inv (.inr h2) (.inr h1), mul_assoc, ENNReal.inv_mul_cancel h1 h2, mul_one]

/-- A draw from `n` possibilities, for `n` up to `B`. -/
theorem randBelow {n : ℕ} [NeZero n] (hB : n ≤ B) :
    HasLaw B (Rng.randBelow n) ((PMF.uniformOfFintype (Fin n)).map Fin.val) := by
  have hn : 0 < n := Nat.pos_of_neZero n
  have hlaw : ∀ a, ((PMF.uniformOfFintype (Fin n)).map Fin.val) a = if a < n then (n : ENNReal)⁻¹ else 0 := by
    intro a
    rw [PMF.map_apply]
    simp only [PMF.uniformOfFintype_apply, Fintype.card_fin]
    by_cases ha : a < n
    · rw [if_pos ha, tsum_eq_single (⟨a, ha⟩ : Fin n), if_pos rfl]
      intro b hb
      exact if_neg fun h => hb (Fin.ext h.symm)
    · rw [if_neg ha, ENNReal.tsum_eq_zero]
      intro i
      exact if_neg fun h : a = i.val => ha (h ▸ i.2)
  refine ⟨fun t => t.2 0 % n, fun _ => (0, 1), fun r => rfl, fun t => ?_, fun a S hS => ?_⟩
  · rw [PMF.mem_support_iff, hlaw, if_pos (Nat.mod_lt _ hn)]
    simp
  have hp : {t : Tape | t.2 0 % n = a ∧ t.drop (0, 1) ∈ S} =
      (fun t : Tape => (t.2 0, t.drop (0, 1))) ⁻¹' ({x | x % n = a} ×ˢ S) := rfl
  have hm : MeasurableSet {x : ℕ | x % n = a} := MeasurableSet.of_discrete
  rw [hp]
  refine ⟨(measurePreserving_nat (B := B)).measurable (hm.prod hS), ?_⟩
  rw [measurePreserving_nat.measure_preimage (hm.prod hS).nullMeasurableSet, Measure.prod_prod, hlaw]
  split_ifs with ha
  · rw [uniformNat_mod hn hB ha]
  · have : {x : ℕ | x % n = a} = ∅ := by
      ext x
      simp only [Set.mem_ofPred_eq, Set.mem_empty_iff_false, iff_false]
      rintro rfl
      exact ha (Nat.mod_lt _ hn)
    rw [this]; simp

theorem lift {e : Except PyErr α} {a : α} (h : e = .ok a) : HasLaw B (PyM.lift e) (PMF.pure a) := by
  subst h; exact pure a

theorem bind_lift {e : Except PyErr α} {k : α → PyM Rng β} {a : α} {law : PMF β} (h : e = .ok a)
    (hk : HasLaw B (k a) law) : HasLaw B (PyM.lift e >>= k) law := by
  have := (lift (B := B) h).bind (k := k) (law' := fun _ => law) fun x hx => by
    rw [(PMF.mem_support_pure_iff a x).mp hx]; exact hk
  rwa [PMF.pure_bind] at this

theorem map {m : PyM Rng α} {law : PMF α} (hm : HasLaw B m law) (f : α → β) :
    HasLaw B (m >>= fun a => Pure.pure (f a)) (law.map f) :=
  hm.bind fun a _ => pure (f a)

/-- The law is determined by the program. -/
theorem unique {m : PyM Rng α} {law law' : PMF α} (h : HasLaw B m law) (h' : HasLaw B m law') : law = law' := by
  obtain ⟨f, u, h1, -, h3⟩ := h
  obtain ⟨f', u', h1', -, h3'⟩ := h'
  have hf : f = f' := by
    funext t
    have := (h1 (start t)).symm.trans (h1' (start t))
    rw [rest_start] at this
    exact Except.ok.inj (Prod.ext_iff.mp this).1
  subst hf
  ext a
  have e1 := (h3 a Set.univ .univ).2
  have e2 := (h3' a Set.univ .univ).2
  simp only [Set.mem_univ, and_true, measure_univ, mul_one] at e1 e2
  exact e1.symm.trans e2

/-- The probability of an event that depends on the result only. -/
theorem probability {m : PyM Rng α} {law : PMF α} (h : HasLaw B m law) (A : Set α) :
    MeasurableSet {t | ∃ a ∈ A, (m (start t)).1 = .ok a} ∧
      tapes B {t | ∃ a ∈ A, (m (start t)).1 = .ok a} = law.toOuterMeasure A := by
  obtain ⟨f, u, h1, h2, h3⟩ := h
  have hset : {t | ∃ a ∈ A, (m (start t)).1 = .ok a} = ⋃ a ∈ A ∩ law.support, {t | f t = a ∧ t.drop (u t) ∈ Set.univ} := by
    ext t
    simp only [Set.mem_ofPred_eq, Set.mem_iUnion, h1, rest_start, Except.ok.injEq, Set.mem_univ, and_true]
    constructor
    · rintro ⟨a, ha, rfl⟩; exact ⟨f t, ⟨ha, h2 t⟩, rfl⟩
    · rintro ⟨a, ha, rfl⟩; exact ⟨f t, ha.1, rfl⟩
  have hc : (A ∩ law.support).Countable := law.support_countable.mono Set.inter_subset_right
  rw [hset]
  refine ⟨.biUnion hc fun a _ => (h3 a _ .univ).1, ?_⟩
  rw [measure_biUnion hc ?_ fun a _ => (h3 a _ .univ).1, ← law.toOuterMeasure_apply_inter_support,
    PMF.toOuterMeasure_apply]
  · simp only [(h3 _ _ MeasurableSet.univ).2, measure_univ, mul_one]
    exact tsum_subtype _ _
  · intro a _ a' _ hne
    exact Set.disjoint_left.mpr fun t h h' => hne (h.1.symm.trans h'.1)

end HasLaw

end Rng

end Stoq
