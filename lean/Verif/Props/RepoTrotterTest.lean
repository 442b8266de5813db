import Verif.Props.RepoHamiltonianTests
import Verif.Proofs.RepoTrotterTest

/-!
# Properties C86: the unit test of Trotter sequences (tests/test_hamiltonian.py: test_trotterization)

The test compares a sequence in the given order with one in random order: both must be close to the time evolution, and
they must not be equal to each other.  The last assertion fails for some random numbers.
-/

namespace Stoq

open Tests Matrix MeasureTheory

open scoped Matrix.Norms.L2Operator

/-- The product of the steps in the given order is close to the time evolution. -/
theorem trotter_fixed : 1 - overlap (evolution (xyTerms 2 (-3)).sum 1.234) (stepOf [0, 1] ^ 20) ≤ 0.05 := by
  have h := step_bounds.2.2
  have hU : evolution (xyTerms 2 (-3)).sum (1.234 / 20) ∈ unitaryGroup (Fin (2 ^ 1)) ℂ := by
    obtain ⟨H, -, -, hH⟩ := xy_23
    exact evolution_unitary hH.total.2 _
  have h2 := overlap_ge (by norm_num : 0 < 2 ^ 1) (pow_mem hU 20) (pow_mem (stepOf_unitary [0, 1]) 20)
  rw [evolution_pow] at h h2
  rw [show ((20 : ℕ) : ℝ) * (1.234 / 20) = 1.234 by norm_num] at h h2
  refine h2.trans ?_
  have h3 := pow_le_pow_left₀ (norm_nonneg _) h 2
  refine (div_le_div_of_nonneg_right h3 (by norm_num)).trans ?_
  norm_num

/-- At most one order of the first two steps gives a product equal to that in the given order. -/
theorem trotter_quarter {E : Set (List (List ℕ))}
    (hE : ∀ o ∈ E, 1 - overlap (stepOf [0, 1] ^ 20) (stepsOf o) ≤ 1 / 100000000) :
    (drawsLaw (shuffleLaw [0, 1]) 20).toOuterMeasure E ≤ ENNReal.ofReal (1 / 4) := by
  refine draws_quarter (k := 18) fun L o₁ o₂ o₁' o₂' m1 m2 m3 m4 h1 h2 => ?_
  by_contra hne
  have h3 := two_steps_far o₁ o₂ o₁' o₂' m1 m2 m3 m4 (by
    by_contra h
    push Not at h
    exact hne h)
  have h4 := overlap_triangle (by norm_num : 0 < 2 ^ 1) (stepsOf_unitary (o₁ :: o₂ :: L)) (stepsOf_unitary (o₁' :: o₂' :: L))
    (pow_mem (stepOf_unitary [0, 1]) 20) (δ := 1 / 100000000) (by rw [overlap_comm]; exact hE _ h1) (by rw [overlap_comm]; exact hE _ h2)
  have e : ∀ a b : List ℕ, stepsOf (a :: b :: L) = stepsOf L * (stepOf b * stepOf a) := fun a b => by
    simp [stepsOf]
  rw [e, e, overlap_mul_left (stepsOf_unitary L)] at h4
  linarith

/-- C86: the test of the Trotter sequences passes with probability at least 3/5. -/
theorem C86_trotter {B : ℕ} (hB : 2 ≤ B) : ENNReal.ofReal (3 / 5) ≤ Rng.tapes B {t | PassesOn (trotterization 0) t} := by
  obtain ⟨H, h1, hd, hH⟩ := xy_23
  obtain ⟨b1, b2, -⟩ := step_bounds
  have hst : ∀ o, trotterMatrix (xyTerms 2 (-3)) (1.234 / ((20 : ℕ) : ℝ)) o = stepOf o := fun o => by
    unfold stepOf
    push_cast
    rfl
  obtain ⟨F, f1, -, f3, f4⟩ := trotter_random_mean hH 1.234 (N := 20) (by norm_num) (B := B) hB (μ := 0.0019) (σ := 0.00026)
    (fun o ho => by rw [hst, hst]; simpa using b1 o ho) (fun o ho => by rw [hst]; simpa using b2 o ho)
  have hF : ∀ t, ((F t).map (trotterMatrix (xyTerms 2 (-3)) (1.234 / ((20 : ℕ) : ℝ)))).reverse.prod = stepsOf (F t) := fun t => by
    rw [stepsOf, show trotterMatrix (xyTerms 2 (-3)) (1.234 / ((20 : ℕ) : ℝ)) = stepOf from funext hst]
  simp only [hF] at f3 f4
  set D : Rng.Tape → ℝ := fun t => 1 - overlap (evolution (xyTerms 2 (-3)).sum 1.234) (stepsOf (F t)) with hD
  have hU : evolution (xyTerms 2 (-3)).sum 1.234 ∈ unitaryGroup (Fin (2 ^ 1)) ℂ := evolution_unitary hH.total.2 _
  have hD0 : ∀ t, 0 ≤ D t := fun t => by
    have := overlap_le_one hU (stepsOf_unitary (F t))
    simp only [hD]; linarith
  have hD1 : ∀ t, D t ≤ 1 := fun t => by
    have := overlap_nonneg (evolution (xyTerms 2 (-3)).sum 1.234) (stepsOf (F t))
    simp only [hD]; linarith
  have hDm : Measurable D := measurable_const.sub f3
  have hDi : Integrable D (Rng.tapes B) := Integrable.of_bound hDm.aestronglyMeasurable 1
    (Filter.Eventually.of_forall fun t => by rw [Real.norm_eq_abs, abs_of_nonneg (hD0 t)]; exact hD1 t)
  -- too far from the time evolution
  have hbad1 : Rng.tapes B {t | 0.05 ≤ D t} ≤ ENNReal.ofReal (3 / 20) := by
    have h := mul_meas_ge_le_integral_of_nonneg (Filter.Eventually.of_forall hD0) hDi 0.05
    rw [← ENNReal.ofReal_toReal (measure_ne_top (Rng.tapes B) {t | 0.05 ≤ D t})]
    refine ENNReal.ofReal_le_ofReal ?_
    change 0.05 * (Rng.tapes B {t | 0.05 ≤ D t}).toReal ≤ _ at h
    norm_num at f4
    norm_num at h
    linarith
  -- equal to the product in the given order
  set E : Set (List (List ℕ)) := {o | 1 - overlap (stepOf [0, 1] ^ 20) (stepsOf o) ≤ 1 / 100000000} with hE
  obtain ⟨p1, p2⟩ := (reshuffle_law (l := [0, 1]) (by simp) (B := B) hB 20 [0, 1] (.refl _)).probability E
  have hbad2 := trotter_quarter (E := E) fun o ho => ho
  rw [← p2] at hbad2
  set G := {t : Rng.Tape | 0.05 ≤ D t} ∪ {t | ∃ a ∈ E, (reshuffle 20 [0, 1] (Rng.start t)).1 = .ok a} with hG
  have hGm : MeasurableSet G := (measurableSet_le measurable_const hDm).union p1
  have hGb : Rng.tapes B G ≤ ENNReal.ofReal (2 / 5) := by
    refine (measure_union_le _ _).trans ((add_le_add hbad1 hbad2).trans ?_)
    rw [← ENNReal.ofReal_add (by norm_num) (by norm_num)]
    exact ENNReal.ofReal_le_ofReal (by norm_num)
  have hGc : ENNReal.ofReal (3 / 5) ≤ Rng.tapes B Gᶜ := by
    rw [prob_compl_eq_one_sub hGm]
    refine le_trans (le_of_eq ?_) (tsub_le_tsub_left hGb 1)
    rw [← ENNReal.ofReal_one, ← ENNReal.ofReal_sub _ (by norm_num)]
    norm_num
  refine hGc.trans (measure_mono fun t ht => ?_)
  obtain ⟨orders, r', g1, g2⟩ := trotterization_iff h1 hd hH t
  obtain ⟨r'', g3⟩ := f1 (Rng.start t)
  rw [Rng.rest_start] at g3
  have g4 : orders = F t := by
    have : (Except.ok orders, r') = (Except.ok (F t), r'') := g1.symm.trans g3
    exact Except.ok.inj (Prod.mk.inj this).1
  have ht1 : ¬ 0.05 ≤ D t := fun h => ht (.inl h)
  have ht2 : orders ∉ E := fun h => ht (.inr ⟨orders, h, by rw [g1]⟩)
  refine g2.mpr ⟨trotter_fixed, ?_, ht2⟩
  rw [g4]
  exact (not_le.mp ht1).le

/-- C86: the test of the Trotter sequences passes exactly if the product in the order of the first 20 shuffles that are
drawn is close to the time evolution but not to the product in the given order. -/
theorem C86_trotter_iff (t : Rng.Tape) : ∃ orders r', reshuffle 20 [0, 1] (Rng.start t) = (.ok orders, r') ∧
    (PassesOn (trotterization 0) t ↔ 1 - overlap (evolution (xyTerms 2 (-3)).sum 1.234) (stepsOf orders) ≤ 0.05 ∧
      1 / 100000000 < 1 - overlap (stepOf [0, 1] ^ 20) (stepsOf orders)) := by
  obtain ⟨H, h1, hd, hH⟩ := xy_23
  obtain ⟨orders, r', g1, g2⟩ := trotterization_iff h1 hd hH t
  refine ⟨orders, r', g1, g2.trans ?_⟩
  rw [not_le]
  exact and_iff_right trotter_fixed

/-- C86: the test of the Trotter sequences fails, by its last assertion, if no step is reordered, which has a positive
probability. -/
theorem C86_trotter_fails {B : ℕ} (hB : 2 ≤ B) :
    ENNReal.ofReal ((1 / 2) ^ 20) ≤ Rng.tapes B {t | ¬ PassesOn (trotterization 0) t} := by
  obtain ⟨H, h1, hd, hH⟩ := xy_23
  obtain ⟨p1, p2⟩ := (reshuffle_law (l := [0, 1]) (by simp) (B := B) hB 20 [0, 1] (.refl _)).probability
    {List.replicate 20 [0, 1]}
  refine (draws_replicate 20).trans ?_
  rw [← PMF.toOuterMeasure_apply_singleton, ← p2]
  refine measure_mono fun t ht => ?_
  obtain ⟨a, rfl, ha⟩ := ht
  obtain ⟨orders, r', g1, g2⟩ := trotterization_iff h1 hd hH t
  rw [g1] at ha
  obtain rfl : orders = List.replicate 20 [0, 1] := Except.ok.inj ha
  intro hp
  refine (g2.mp hp).2.2 ?_
  have e : stepsOf (List.replicate 20 [0, 1]) = stepOf [0, 1] ^ 20 := by
    rw [stepsOf, List.map_replicate, List.reverse_replicate, List.prod_replicate]
  rw [e, overlap_self (by norm_num) (pow_mem (stepOf_unitary _) 20)]
  norm_num

end Stoq
