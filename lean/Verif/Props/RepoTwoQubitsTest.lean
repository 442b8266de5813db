import Verif.Proofs.RepoTwoQubitsPass
import Verif.Props.RepoEvents

/-! # C92: the test of a Hamiltonian of two qubits

`test_two_qubits` compares a Trotter sequence of 20 steps in random order and a QDRIFT sequence of 1000 gates with the time
evolution and with each other: both must be within 0.05 of the time evolution, but no two of the three within 1e-8. -/

namespace Stoq

open Matrix Tests MeasureTheory

open scoped Matrix.Norms.L2Operator

/-- An event that depends on the result of a program and on what it leaves of the tape. -/
theorem Rng.HasLaw.mixture {α : Type} [Countable α] {B : ℕ} {m : PyM Rng α} {law : PMF α} (h : HasLaw B m law) {G : α → Set Tape}
    (hG : ∀ a, MeasurableSet (G a)) : MeasurableSet {t | ∃ a r', m (start t) = (.ok a, r') ∧ r'.rest ∈ G a} ∧
      tapes B {t | ∃ a r', m (start t) = (.ok a, r') ∧ r'.rest ∈ G a} = ∑' a, law a * tapes B (G a) := by
  obtain ⟨f, u, h1, h2, h3⟩ := h
  have hset : {t | ∃ a r', m (start t) = (.ok a, r') ∧ r'.rest ∈ G a} = ⋃ a, {t | f t = a ∧ t.drop (u t) ∈ G a} := by
    ext t
    simp only [Set.mem_ofPred_eq, Set.mem_iUnion, h1, rest_start]
    constructor
    · rintro ⟨a, r', h, hr⟩
      obtain ⟨ha, rfl⟩ := Prod.mk.inj h
      obtain rfl := Except.ok.inj ha
      rw [rest_skip, rest_start] at hr
      exact ⟨f t, rfl, hr⟩
    · rintro ⟨a, rfl, hr⟩
      exact ⟨f t, _, rfl, by rw [rest_skip, rest_start]; exact hr⟩
  rw [hset]
  refine ⟨.iUnion fun a => (h3 a _ (hG a)).1, ?_⟩
  rw [measure_iUnion ?_ fun a => (h3 a _ (hG a)).1]
  · exact tsum_congr fun a => (h3 a _ (hG a)).2
  · intro a a' hne
    exact Set.disjoint_left.mpr fun t h h' => hne (h.1.symm.trans h'.1)

/-- When the test passes, given the orders of the Trotter steps, and the distribution of the orders. -/
theorem twoQubits_law {B : ℕ} (hB : 3 ≤ B) : ∃ Q : (ℕ → Set.Ico (0 : ℝ) 1) → Matrix (Fin (2 ^ 2)) (Fin (2 ^ 2)) ℂ,
    (∀ orders, MeasurableSet {t : Rng.Tape | Good4 (steps4 orders) (Q t.1)}) ∧
    (∀ t : Rng.Tape, PassesOn (hamiltonianTwoQubits 0) t ↔
      ∃ orders r', reshuffle 20 [0, 1, 2] (Rng.start t) = (.ok orders, r') ∧ Good4 (steps4 orders) (Q r'.rest.1)) ∧
    (∀ t : Rng.Tape, ¬ PassesOn (hamiltonianTwoQubits 0) t ↔
      ∃ orders r', reshuffle 20 [0, 1, 2] (Rng.start t) = (.ok orders, r') ∧ ¬ Good4 (steps4 orders) (Q r'.rest.1)) ∧
    (∀ orders, 1 - overlap target4 (steps4 orders) ≤ 0.05 → ¬ 1 - overlap target4 (steps4 orders) ≤ 1 / 100000000 →
      ENNReal.ofReal (1 / 6) ≤ Rng.tapes B {t | Good4 (steps4 orders) (Q t.1)}) ∧
    (∀ orders, ENNReal.ofReal ((1.5 / 4.6) ^ 1000) ≤ Rng.tapes B {t | ¬ Good4 (steps4 orders) (Q t.1)}) ∧
    Rng.HasLaw B (reshuffle 20 [0, 1, 2]) (drawsLaw (shuffleLaw [0, 1, 2]) 20) ∧
    ENNReal.ofReal (3 / 5) ≤ (drawsLaw (shuffleLaw [0, 1, 2]) 20).toOuterMeasure
      {orders | 1 - overlap target4 (steps4 orders) ≤ 0.05 ∧ ¬ 1 - overlap target4 (steps4 orders) ≤ 1 / 100000000} := by
  obtain ⟨H, h1, hd, hH⟩ := xyy_of
  obtain ⟨Q, hQu, hQm, hQ, hfar, hnear, hbad⟩ := drift4 hH
  have hT : target4 ∈ unitaryGroup (Fin (2 ^ 2)) ℂ := evolution_unitary hH.total.2 _
  have hlaw := reshuffle_law (l := [0, 1, 2]) (by decide) (B := B) hB 20 [0, 1, 2] (.refl _)
  have hfst : MeasurePreserving (Prod.fst : Rng.Tape → _) (Rng.tapes B) uniformTape := measurePreserving_fst
  have m1 := hQm target4 hT
  have hGm : ∀ orders, MeasurableSet {ω | Good4 (steps4 orders) (Q ω)} := fun orders => by
    have m2 := hQm (steps4 orders) (steps4_unitary orders)
    have n1 : MeasurableSet {ω | 1 - overlap target4 (Q ω) ≤ 0.05} := measurableSet_le (measurable_const.sub m1) measurable_const
    have n2 : MeasurableSet {ω | 1 - overlap target4 (Q ω) ≤ 1 / 100000000} := measurableSet_le (measurable_const.sub m1) measurable_const
    have n3 : MeasurableSet {ω | 1 - overlap (steps4 orders) (Q ω) ≤ 1 / 100000000} :=
      measurableSet_le (measurable_const.sub m2) measurable_const
    exact (MeasurableSet.const _).inter (n1.inter ((MeasurableSet.const _).inter (n2.compl.inter n3.compl)))
  have pass := twoQubits_iff h1 hd hH hQu hQ
  refine ⟨Q, fun orders => measurable_fst (hGm orders), fun t => ?_, fun t => ?_, fun orders ho1 ho2 => ?_, fun orders => ?_, hlaw, ?_⟩
  · obtain ⟨orders, r', g1, g2⟩ := pass t
    refine g2.trans ⟨fun h => ⟨orders, r', g1, h⟩, ?_⟩
    rintro ⟨o, r, h, hg⟩
    rw [g1] at h
    cases h
    exact hg
  · obtain ⟨orders, r', g1, g2⟩ := pass t
    refine (not_congr g2).trans ⟨fun h => ⟨orders, r', g1, h⟩, ?_⟩
    rintro ⟨o, r, h, hg⟩
    rw [g1] at h
    cases h
    exact hg
  · rw [show {t : Rng.Tape | Good4 (steps4 orders) (Q t.1)} = Prod.fst ⁻¹' {ω | Good4 (steps4 orders) (Q ω)} from rfl,
      hfst.measure_preimage (hGm orders).nullMeasurableSet]
    set X := {ω | 0.05 ≤ 1 - overlap target4 (Q ω)} with hX
    set Y := {ω | 1 - overlap target4 (Q ω) ≤ 1 / 100000000} with hY
    set Z := {ω | 1 - overlap (steps4 orders) (Q ω) ≤ 1 / 100000000} with hZ
    have hsub : (X ∪ (Y ∪ Z))ᶜ ⊆ {ω | Good4 (steps4 orders) (Q ω)} := by
      intro ω hω
      have i1 : ω ∉ X := fun h => hω (.inl h)
      have i2 : ω ∉ Y := fun h => hω (.inr (.inl h))
      have i3 : ω ∉ Z := fun h => hω (.inr (.inr h))
      exact ⟨ho1, (not_le.mp i1).le, ho2, i2, i3⟩
    have hm : MeasurableSet (X ∪ (Y ∪ Z)) := (measurableSet_le measurable_const (measurable_const.sub m1)).union
      ((measurableSet_le (measurable_const.sub m1) measurable_const).union
        (measurableSet_le (measurable_const.sub (hQm _ (steps4_unitary orders))) measurable_const))
    refine le_trans ?_ (measure_mono hsub)
    rw [prob_compl_eq_one_sub hm]
    have hb : uniformTape (X ∪ (Y ∪ Z)) ≤ ENNReal.ofReal (5 / 6) := by
      refine (measure_union_le _ _).trans ((add_le_add hfar ((measure_union_le _ _).trans
        (add_le_add (hnear _ hT) (hnear _ (steps4_unitary orders))))).trans ?_)
      rw [← ENNReal.ofReal_add (by norm_num) (by norm_num), ← ENNReal.ofReal_add (by norm_num) (by norm_num)]
      exact ENNReal.ofReal_le_ofReal (by norm_num)
    refine le_trans (le_of_eq ?_) (tsub_le_tsub_left hb 1)
    rw [← ENNReal.ofReal_one, ← ENNReal.ofReal_sub _ (by norm_num)]
    norm_num
  · refine le_trans hbad ?_
    have hc : MeasurableSet {ω | ¬ 1 - overlap (evolution xyyTerms.sum 1.234) (Q ω) ≤ 0.05} :=
      (measurableSet_le (measurable_const.sub m1) measurable_const).compl
    rw [← hfst.measure_preimage hc.nullMeasurableSet]
    exact measure_mono fun t ht hg => ht hg.2.1
  · -- the mean distance of the Trotter sequence
    have hst : ∀ o, trotterMatrix xyyTerms (1.234 / ((20 : ℕ) : ℝ)) o = step4 o := fun o => by
      unfold step4
      push_cast
      rfl
    obtain ⟨F, f1, -, f3, f4⟩ := trotter_random_mean hH 1.234 (N := 20) (by norm_num) (B := B) hB (μ := 0.0019) (σ := 0.000102)
      (fun o ho => by rw [hst, hst]; simpa using step4_mean ho) (fun o ho => by rw [hst]; simpa using step4_distance ho)
    have hF : ∀ t, ((F t).map (trotterMatrix xyyTerms (1.234 / ((20 : ℕ) : ℝ)))).reverse.prod = steps4 (F t) := fun t => by
      rw [steps4, show trotterMatrix xyyTerms (1.234 / ((20 : ℕ) : ℝ)) = step4 from funext hst]
    simp only [hF] at f3 f4
    set D : Rng.Tape → ℝ := fun t => 1 - overlap target4 (steps4 (F t)) with hD
    have hD0 : ∀ t, 0 ≤ D t := fun t => by
      have := overlap_le_one hT (steps4_unitary (F t))
      simp only [hD]; linarith
    have hD1 : ∀ t, D t ≤ 1 := fun t => by
      have := overlap_nonneg target4 (steps4 (F t))
      simp only [hD]; linarith
    have hDm : Measurable D := measurable_const.sub f3
    have hDi : Integrable D (Rng.tapes B) := Integrable.of_bound hDm.aestronglyMeasurable 1
      (Filter.Eventually.of_forall fun t => by rw [Real.norm_eq_abs, abs_of_nonneg (hD0 t)]; exact hD1 t)
    have hbad1 : Rng.tapes B {t | 0.05 ≤ D t} ≤ ENNReal.ofReal 0.06 := by
      have h := mul_meas_ge_le_integral_of_nonneg (Filter.Eventually.of_forall hD0) hDi 0.05
      rw [← ENNReal.ofReal_toReal (measure_ne_top (Rng.tapes B) {t | 0.05 ≤ D t})]
      refine ENNReal.ofReal_le_ofReal ?_
      change 0.05 * (Rng.tapes B {t | 0.05 ≤ D t}).toReal ≤ _ at h
      change ∫ t, D t ∂Rng.tapes B ≤ _ at f4
      norm_num at f4
      norm_num at h
      linarith
    set E : Set (List (List ℕ)) := {o | 1 - overlap target4 (steps4 o) ≤ 1 / 100000000} with hE
    obtain ⟨p1, p2⟩ := hlaw.probability E
    have hbad2 := near_third hT 19
    rw [← p2] at hbad2
    set A := {orders | 1 - overlap target4 (steps4 orders) ≤ 0.05 ∧ ¬ 1 - overlap target4 (steps4 orders) ≤ 1 / 100000000} with hA
    rw [← (hlaw.probability A).2]
    set G := {t : Rng.Tape | 0.05 ≤ D t} ∪ {t | ∃ a ∈ E, (reshuffle 20 [0, 1, 2] (Rng.start t)).1 = .ok a} with hG
    have hGm : MeasurableSet G := (measurableSet_le measurable_const hDm).union p1
    have hGb : Rng.tapes B G ≤ ENNReal.ofReal (2 / 5) := by
      refine (measure_union_le _ _).trans ((add_le_add hbad1 hbad2).trans ?_)
      rw [← ENNReal.ofReal_add (by norm_num) (by norm_num)]
      exact ENNReal.ofReal_le_ofReal (by norm_num)
    have hGc : ENNReal.ofReal (3 / 5) ≤ Rng.tapes B Gᶜ := by
      rw [prob_compl_eq_one_sub hGm]
      refine le_trans (le_of_eq ?_) (tsub_le_tsub_left hGb 1)
      rw [← ENNReal.ofReal_one, ← ENNReal.ofReal_sub _ (by norm_num)]
      norm_num
    refine hGc.trans (measure_mono fun t ht => ?_)
    obtain ⟨r'', g3⟩ := f1 (Rng.start t)
    rw [Rng.rest_start] at g3
    have g4 : reshuffle 20 [0, 1, 2] (Rng.start t) = (.ok (F t), r'') := g3
    have ht1 : ¬ 0.05 ≤ D t := fun h => ht (.inl h)
    have ht2 : F t ∉ E := fun h => ht (.inr ⟨F t, h, by rw [g4]⟩)
    exact ⟨F t, ⟨(not_le.mp ht1).le, ht2⟩, by rw [g4]⟩

/-- C92: the tapes on which the test passes are an event. -/
theorem C92_event : PassEvent (hamiltonianTwoQubits 0) := by
  obtain ⟨Q, hm, hp, -, -, -, hlaw, -⟩ := twoQubits_law (B := 3) le_rfl
  have := (hlaw.mixture hm).1
  unfold PassEvent
  convert this using 1
  ext t
  exact hp t

/-- C92: the test passes with probability at least 1/10. -/
theorem C92_two_qubits {B : ℕ} (hB : 3 ≤ B) :
    ENNReal.ofReal (1 / 10) ≤ Rng.tapes B {t | PassesOn (hamiltonianTwoQubits 0) t} := by
  classical
  obtain ⟨Q, hm, hp, -, hq, -, hlaw, hA⟩ := twoQubits_law hB
  have e : {t | PassesOn (hamiltonianTwoQubits 0) t} = _ := Set.ext hp
  rw [e]
  refine le_trans ?_ (hlaw.mixture hm).2.ge
  set A := {orders | 1 - overlap target4 (steps4 orders) ≤ 0.05 ∧ ¬ 1 - overlap target4 (steps4 orders) ≤ 1 / 100000000} with hAd
  calc ENNReal.ofReal (1 / 10) = ENNReal.ofReal (3 / 5) * ENNReal.ofReal (1 / 6) := by
        rw [← ENNReal.ofReal_mul (by norm_num)]; norm_num
    _ ≤ (drawsLaw (shuffleLaw [0, 1, 2]) 20).toOuterMeasure A * ENNReal.ofReal (1 / 6) := mul_le_mul_left hA _
    _ = ∑' a, A.indicator (drawsLaw (shuffleLaw [0, 1, 2]) 20) a * ENNReal.ofReal (1 / 6) := by
        rw [PMF.toOuterMeasure_apply, ENNReal.tsum_mul_right]
    _ ≤ _ := by
        refine ENNReal.tsum_le_tsum fun a => ?_
        rw [Set.indicator_apply]
        split
        · rename_i ha
          exact mul_le_mul_right (hq a ha.1 ha.2) _
        · rw [zero_mul]; exact zero_le

/-- C92: the test also fails with a positive probability, whatever the orders of the Trotter steps are: the QDRIFT sequence
may consist of 1000 equal gates. -/
theorem C92_fails {B : ℕ} (hB : 3 ≤ B) :
    ENNReal.ofReal ((1.5 / 4.6) ^ 1000) ≤ Rng.tapes B {t | ¬ PassesOn (hamiltonianTwoQubits 0) t} := by
  obtain ⟨Q, hm, -, hp, -, hf, hlaw, -⟩ := twoQubits_law hB
  have e : {t | ¬ PassesOn (hamiltonianTwoQubits 0) t} = _ := Set.ext hp
  rw [e]
  refine le_trans ?_ (hlaw.mixture fun a => (hm a).compl).2.ge
  calc ENNReal.ofReal ((1.5 / 4.6) ^ 1000) = ∑' a, drawsLaw (shuffleLaw [0, 1, 2]) 20 a * ENNReal.ofReal ((1.5 / 4.6) ^ 1000) := by
        rw [ENNReal.tsum_mul_right, PMF.tsum_coe, one_mul]
    _ ≤ _ := ENNReal.tsum_le_tsum fun a => mul_le_mul_right (hf a) _

end Stoq
