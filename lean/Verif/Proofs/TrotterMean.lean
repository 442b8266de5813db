import Verif.Proofs.TrotterSecond
import Verif.Proofs.LawGates
import Verif.Proofs.Hamiltonian

/-! # Products over repeatedly shuffled lists, and their mean -/

namespace Stoq

open Matrix MeasureTheory
open scoped Matrix.Norms.L2Operator

/-! ## The distribution of a shuffled list -/

theorem shuffleLaw_apply {α : Type} [DecidableEq α] {l a : List α} (hl : l.Nodup) :
    shuffleLaw l a = if a.Perm l then ((l.length.factorial : ℕ) : ENNReal)⁻¹ else 0 := by
  unfold shuffleLaw
  rw [PMF.map_apply]
  have hinj : ∀ σ τ : Equiv.Perm (Fin l.length), (List.ofFn fun i => l.get (σ i)) = (List.ofFn fun i => l.get (τ i)) → σ = τ := by
    intro σ τ h
    have h1 := List.ofFn_injective h
    exact Equiv.ext fun i => (List.nodup_iff_injective_get.mp hl) (congrFun h1 i)
  have hperm : ∀ σ : Equiv.Perm (Fin l.length), (List.ofFn fun i => l.get (σ i)).Perm l := by
    intro σ
    have h1 : (List.ofFn fun i => l.get (σ i)) = (List.ofFn (σ : Fin l.length → Fin l.length)).map l.get := by
      rw [List.map_ofFn]; rfl
    have h2 := (Equiv.Perm.map_finRange_perm σ).map l.get
    rw [h1, List.ofFn_eq_map]
    refine h2.trans (List.Perm.of_eq ?_)
    rw [← List.ofFn_eq_map, List.ofFn_get]
  split
  · next h =>
    have hex : ∃ σ : Equiv.Perm (Fin l.length), a = List.ofFn fun i => l.get (σ i) := by
      by_contra hc
      push Not at hc
      -- all orders together have probability one
      have hlaw := Rng.HasLaw.shuffle (B := l.length) (l := l) le_rfl
      obtain ⟨ns, ⟨h1, h2⟩, -⟩ := Rng.shuffle_unique hl h
      obtain ⟨h3, h4⟩ := Rng.shuffleDraws_iff.mp h1
      have hb : ∀ x ∈ ns, x.1 ≤ l.length := fun x hx => by
        have : x.1 ∈ Rng.bounds (l.length - 1) := by rw [← h3]; exact List.mem_map_of_mem hx
        rw [Rng.bounds_eq] at this
        obtain ⟨t, ht, e⟩ := List.mem_map.mp this
        rw [List.mem_range] at ht
        omega
      have h5 := hlaw.of_yields h4 hb h2
      unfold shuffleLaw at h5
      rw [PMF.map_apply] at h5
      have h5 := h5.trans (le_of_eq (ENNReal.tsum_eq_zero.mpr fun σ => if_neg (hc σ)))
      rw [nonpos_iff_eq_zero,
        show (ns.map fun x => (x.1 : ENNReal)⁻¹) = (ns.map Prod.fst).map fun b => ((b : ℕ) : ENNReal)⁻¹ by
          rw [List.map_map]; rfl, h3, Rng.HasLaw.bounds_prod] at h5
      exact absurd h5 (by simp)
    obtain ⟨σ, rfl⟩ := hex
    rw [tsum_eq_single σ, if_pos rfl, PMF.uniformOfFintype_apply, Fintype.card_perm, Fintype.card_fin]
    intro τ hτ
    exact if_neg fun e => hτ (hinj _ _ e).symm
  · next h =>
    refine ENNReal.tsum_eq_zero.mpr fun σ => if_neg ?_
    rintro rfl
    exact h (hperm σ)

theorem shuffleLaw_perm {α : Type} {l l' : List α} (hl : l.Nodup) (h : l'.Perm l) : shuffleLaw l' = shuffleLaw l := by
  classical
  ext a
  rw [shuffleLaw_apply hl, shuffleLaw_apply (h.nodup_iff.mpr hl), h.length_eq]
  exact if_congr ⟨fun x => x.trans h, fun x => x.trans h.symm⟩ rfl rfl

theorem shuffleLaw_reverse {α : Type} {l : List α} (hl : l.Nodup) : (shuffleLaw l).map List.reverse = shuffleLaw l := by
  classical
  ext a
  rw [PMF.map_apply, tsum_eq_single a.reverse, if_pos (by rw [List.reverse_reverse]), shuffleLaw_apply hl, shuffleLaw_apply hl]
  · exact if_congr ⟨fun x => (List.reverse_perm a).symm.trans x, fun x => (List.reverse_perm a).trans x⟩ rfl rfl
  · intro b hb
    exact if_neg fun e => hb (by rw [e, List.reverse_reverse])

/-! ## Splitting the tape -/

/-- The result of a program with a known distribution, together with what it leaves of the tape. -/
theorem Rng.HasLaw.split {α : Type} [Countable α] [MeasurableSpace α] [DiscreteMeasurableSpace α] {B : ℕ} {m : PyM Rng α}
    {law : PMF α} (h : HasLaw B m law) : ∃ (f : Tape → α) (u : Tape → ℕ × ℕ),
      (∀ r : Rng, m r = (.ok (f r.rest), r.skip (u r.rest).1 (u r.rest).2)) ∧ (∀ t, f t ∈ law.support) ∧
      MeasurePreserving (fun t => (f t, t.drop (u t))) (tapes B) (law.toMeasure.prod (tapes B)) := by
  obtain ⟨f, u, h1, h2, h3⟩ := h
  have hm : Measurable fun t => (f t, t.drop (u t)) := by
    refine Measurable.prodMk ?_ ?_
    · refine measurable_to_countable' fun a => ?_
      have e : f ⁻¹' {a} = {t | f t = a ∧ t.drop (u t) ∈ Set.univ} := by ext t; simp
      rw [e]
      exact (h3 a Set.univ .univ).1
    · intro S hS
      have e : (fun t : Tape => t.drop (u t)) ⁻¹' S = ⋃ a, {t | f t = a ∧ t.drop (u t) ∈ S} := by
        ext t
        simp
      rw [e]
      exact .iUnion fun a => (h3 a S hS).1
  refine ⟨f, u, h1, h2, hm, (Measure.prod_eq fun A S hA hS => ?_).symm⟩
  rw [Measure.map_apply hm (hA.prod hS)]
  have e : (fun t => (f t, t.drop (u t))) ⁻¹' A ×ˢ S = ⋃ a ∈ A, {t | f t = a ∧ t.drop (u t) ∈ S} := by
    ext t
    simp
  rw [e, measure_biUnion A.to_countable ?_ fun a _ => (h3 a S hS).1]
  · simp only [fun a => (h3 a S hS).2]
    rw [ENNReal.tsum_mul_right, PMF.toMeasure_apply_eq_tsum, ← tsum_subtype]
  · intro a _ a' _ hne
    refine Set.disjoint_left.mpr fun t h h' => hne ?_
    exact h.1.symm.trans h'.1

/-! ## Repeated shuffles -/

/-- A list is shuffled `k` times, each time starting from the order reached before. -/
def reshuffle {α : Type} : ℕ → List α → PyM Rng (List (List α))
  | 0, _ => pure []
  | k + 1, l => do
    let o ← Rng.shuffle l
    let os ← reshuffle k o
    return o :: os

variable {d : ℕ} {T : List ℕ → Matrix (Fin d) (Fin d) ℂ} {B : ℕ}

/-- The mean over the orders of a list. -/
noncomputable def orderMean (T : List ℕ → Matrix (Fin d) (Fin d) ℂ) (l : List ℕ) : Matrix (Fin d) (Fin d) ℂ :=
  letI : MeasurableSpace (List ℕ) := ⊤
  ∫ o, T o ∂(shuffleLaw l).toMeasure

/-- The product over the orders reached by repeated shuffles is a measurable function of the tape, and its mean is a power
of the mean for one shuffle. -/
theorem reshuffle_mean (hT : ∀ o, T o ∈ unitaryGroup (Fin d) ℂ) {l : List ℕ} (hl : l.Nodup) (hB : l.length ≤ B) (k : ℕ) :
    ∀ l' : List ℕ, l'.Perm l → ∃ F : Rng.Tape → List (List ℕ),
      (∀ r : Rng, ∃ r', reshuffle k l' r = (.ok (F r.rest), r')) ∧
      (∀ t, (F t).length = k ∧ ∀ o ∈ F t, o.Perm l) ∧
      StronglyMeasurable (fun t => ((F t).map T).reverse.prod) ∧
      ∫ t, ((F t).map T).reverse.prod ∂Rng.tapes B = orderMean T l ^ k := by
  let : MeasurableSpace (List ℕ) := ⊤
  have hprod : ∀ L : List (List ℕ), ‖(L.map T).reverse.prod‖ ≤ 1 := fun L => norm_unitary_le (list_prod_mem fun A hA => by
    rw [List.mem_reverse] at hA
    obtain ⟨o, -, rfl⟩ := List.mem_map.mp hA
    exact hT o)
  induction k with
  | zero =>
    intro l' _
    refine ⟨fun _ => [], fun r => ⟨r, rfl⟩, fun t => ⟨rfl, by simp⟩, stronglyMeasurable_const, ?_⟩
    simp
  | succ k ih =>
    intro l' hl'
    obtain ⟨f, u, h1, h2, h3⟩ := (Rng.HasLaw.shuffle (B := B) (l := l') (by rw [hl'.length_eq]; exact hB)).split
    have hsupp : ∀ o ∈ (shuffleLaw l').support, o.Perm l := fun o ho => by
      classical
      rw [PMF.mem_support_iff, shuffleLaw_apply (hl'.nodup_iff.mpr hl)] at ho
      by_contra hc
      exact ho (if_neg fun e => hc (e.trans hl'))
    have hex : ∀ o : List ℕ, ∃ F : Rng.Tape → List (List ℕ), o.Perm l →
        (∀ r : Rng, ∃ r', reshuffle k o r = (.ok (F r.rest), r')) ∧
        (∀ t, (F t).length = k ∧ ∀ o ∈ F t, o.Perm l) ∧
        StronglyMeasurable (fun t => ((F t).map T).reverse.prod) ∧
        ∫ t, ((F t).map T).reverse.prod ∂Rng.tapes B = orderMean T l ^ k := by
      intro o
      by_cases ho : o.Perm l
      · obtain ⟨F, hF⟩ := ih o ho
        exact ⟨F, fun _ => hF⟩
      · exact ⟨fun _ => [], fun h => absurd h ho⟩
    choose F hF using hex
    refine ⟨fun t => f t :: F (f t) (t.drop (u t)), fun r => ?_, fun t => ?_, ?_⟩
    · obtain ⟨r', hr'⟩ := (hF _ (hsupp _ (h2 r.rest))).1 (r.skip (u r.rest).1 (u r.rest).2)
      rw [Rng.rest_skip] at hr'
      refine ⟨r', ?_⟩
      unfold reshuffle
      rw [PyM.bind_of_ok (h1 r), PyM.bind_of_ok hr']
      rfl
    · obtain ⟨h4, h5⟩ := (hF _ (hsupp _ (h2 t))).2.1 (t.drop (u t))
      refine ⟨by rw [List.length_cons, h4], fun o ho => ?_⟩
      rcases List.mem_cons.mp ho with rfl | ho
      · exact hsupp _ (h2 t)
      · exact h5 o ho
    · classical
      set g : List ℕ × Rng.Tape → Matrix (Fin d) (Fin d) ℂ := fun x =>
        (if x.1.Perm l then ((F x.1 x.2).map T).reverse.prod else 0) * T x.1 with hg
      have hgm : StronglyMeasurable g := by
        let : MeasurableSpace (Matrix (Fin d) (Fin d) ℂ) := borel _
        have : BorelSpace (Matrix (Fin d) (Fin d) ℂ) := ⟨rfl⟩
        have : SecondCountableTopology (Matrix (Fin d) (Fin d) ℂ) :=
          inferInstanceAs (SecondCountableTopology (Fin d → Fin d → ℂ))
        refine (measurable_from_prod_countable_right fun o => ?_).stronglyMeasurable
        by_cases ho : o.Perm l
        · simp only [hg, if_pos ho]
          exact ((hF o ho).2.2.1.mul_const _).measurable
        · simp only [hg, if_neg ho]
          exact measurable_const
      have heq : ∀ t, ((f t :: F (f t) (t.drop (u t))).map T).reverse.prod = g (f t, t.drop (u t)) := fun t => by
        simp only [hg, if_pos (hsupp _ (h2 t)), List.map_cons, List.reverse_cons, List.prod_append, List.prod_singleton]
      have hgb : ∀ x, ‖g x‖ ≤ 1 := fun x => by
        simp only [hg]
        refine (norm_mul_le _ _).trans (mul_le_one₀ ?_ (norm_nonneg _) (norm_unitary_le (hT _)))
        split
        · exact hprod _
        · simp
      have hgi : Integrable g ((shuffleLaw l').toMeasure.prod (Rng.tapes B)) :=
        Integrable.of_bound hgm.aestronglyMeasurable 1 (Filter.Eventually.of_forall hgb)
      simp only [heq]
      refine ⟨hgm.comp_measurable h3.measurable, ?_⟩
      have e1 : ∫ t, g (f t, t.drop (u t)) ∂Rng.tapes B = ∫ x, g x ∂((shuffleLaw l').toMeasure.prod (Rng.tapes B)) := by
        rw [← h3.map_eq, integral_map h3.measurable.aemeasurable hgm.aestronglyMeasurable]
      rw [e1, integral_prod g hgi]
      have e2 : ∀ᵐ o ∂(shuffleLaw l').toMeasure, ∫ t, g (o, t) ∂Rng.tapes B = orderMean T l ^ k * T o := by
        rw [ae_iff, PMF.toMeasure_apply_eq_zero_iff _ (MeasurableSpace.measurableSet_top)]
        refine Set.disjoint_left.mpr fun o ho hn => hn ?_
        have ho' := hsupp o ho
        obtain ⟨-, -, h6, h7⟩ := hF o ho'
        simp only [hg, if_pos ho']
        rw [← h7]
        exact ((ContinuousLinearMap.mul ℝ (Matrix (Fin d) (Fin d) ℂ)).flip (T o)).integral_comp_comm
          (Integrable.of_bound h6.aestronglyMeasurable 1 (Filter.Eventually.of_forall fun t => hprod _))
      rw [integral_congr_ae e2, pow_succ]
      have hTi : Integrable T (shuffleLaw l').toMeasure :=
        Integrable.of_bound (StronglyMeasurable.of_discrete (f := T)).aestronglyMeasurable 1
          (Filter.Eventually.of_forall fun o => norm_unitary_le (hT o))
      have e3 := ((ContinuousLinearMap.mul ℝ (Matrix (Fin d) (Fin d) ℂ)) (orderMean T l ^ k)).integral_comp_comm hTi
      refine e3.trans ?_
      rw [shuffleLaw_perm hl hl']
      rfl

/-- The mean over the orders is that of the means of an order and its reverse. -/
theorem orderMean_reverse (hT : ∀ o, T o ∈ unitaryGroup (Fin d) ℂ) {l : List ℕ} (hl : l.Nodup) {V : Matrix (Fin d) (Fin d) ℂ}
    {ε : ℝ} (h : ∀ o : List ℕ, o.Perm l → ‖(1 / 2 : ℝ) • (T o + T o.reverse) - V‖ ≤ ε) : ‖orderMean T l - V‖ ≤ ε := by
  let : MeasurableSpace (List ℕ) := ⊤
  have hint : ∀ S : List ℕ → List ℕ, Integrable (fun o => T (S o)) (shuffleLaw l).toMeasure := fun S =>
    Integrable.of_bound (StronglyMeasurable.of_discrete (f := fun o => T (S o))).aestronglyMeasurable 1
      (Filter.Eventually.of_forall fun o => norm_unitary_le (hT _))
  have h1 : orderMean T l = ∫ o, T o.reverse ∂(shuffleLaw l).toMeasure := by
    have e := PMF.toMeasure_map List.reverse (shuffleLaw l) (measurable_of_countable _)
    rw [shuffleLaw_reverse hl] at e
    unfold orderMean
    conv_lhs => rw [← e]
    exact integral_map (measurable_of_countable _).aemeasurable
      (StronglyMeasurable.of_discrete (f := T)).aestronglyMeasurable
  have h2 : orderMean T l - V = ∫ o, ((1 / 2 : ℝ) • (T o + T o.reverse) - V) ∂(shuffleLaw l).toMeasure := by
    rw [integral_sub (f := fun o => (1 / 2 : ℝ) • (T o + T o.reverse)) (g := fun _ => V)
      (((hint id).add (hint List.reverse)).smul (1 / 2 : ℝ)) (integrable_const _), integral_smul,
      integral_add (f := fun o => T o) (g := fun o => T o.reverse) (hint id) (hint List.reverse), integral_const, ← h1]
    simp only [probReal_univ, one_smul]
    rw [show ∫ o, T o ∂(shuffleLaw l).toMeasure = orderMean T l from rfl, ← two_smul ℝ, smul_smul]
    norm_num
  rw [h2]
  have := norm_integral_le_of_norm_le_const (μ := (shuffleLaw l).toMeasure) (C := ε)
    (f := fun o => (1 / 2 : ℝ) • (T o + T o.reverse) - V) (by
      rw [ae_iff, PMF.toMeasure_apply_eq_zero_iff _ (MeasurableSpace.measurableSet_top)]
      refine Set.disjoint_left.mpr fun o ho hn => hn (h o ?_)
      classical
      rw [PMF.mem_support_iff, shuffleLaw_apply hl] at ho
      by_contra hc
      exact ho (if_neg hc))
  simpa using this

theorem orderMean_norm_le (hT : ∀ o, T o ∈ unitaryGroup (Fin d) ℂ) (l : List ℕ) : ‖orderMean T l‖ ≤ 1 := by
  let : MeasurableSpace (List ℕ) := ⊤
  have := norm_integral_le_of_norm_le_const (μ := (shuffleLaw l).toMeasure) (C := 1) (f := T)
    (Filter.Eventually.of_forall fun o => norm_unitary_le (hT o))
  simpa [orderMean] using this

/-- The real overlap of the mean with a unitary matrix that every order is close to. -/
theorem orderMean_overlap (hT : ∀ o, T o ∈ unitaryGroup (Fin d) ℂ) {l : List ℕ} (hl : l.Nodup)
    {V : Matrix (Fin d) (Fin d) ℂ} {σ : ℝ} (h : ∀ o : List ℕ, o.Perm l → 1 - (Vᴴ * T o).trace.re / d ≤ σ) :
    1 - (Vᴴ * orderMean T l).trace.re / d ≤ σ := by
  let : MeasurableSpace (List ℕ) := ⊤
  let ℓ : Matrix (Fin d) (Fin d) ℂ →ₗ[ℝ] ℝ :=
    { toFun := fun A => (Vᴴ * A).trace.re / d
      map_add' := fun A B => by rw [Matrix.mul_add, Matrix.trace_add, Complex.add_re, add_div]
      map_smul' := fun a A => by
        rw [Matrix.mul_smul, Matrix.trace_smul, Complex.smul_re, smul_eq_mul, mul_div_assoc]; rfl }
  let Λ : Matrix (Fin d) (Fin d) ℂ →L[ℝ] ℝ := LinearMap.toContinuousLinearMap ℓ
  have hTi : Integrable T (shuffleLaw l).toMeasure :=
    Integrable.of_bound (StronglyMeasurable.of_discrete (f := T)).aestronglyMeasurable 1
      (Filter.Eventually.of_forall fun o => norm_unitary_le (hT o))
  have e : (Vᴴ * orderMean T l).trace.re / d = ∫ o, Λ (T o) ∂(shuffleLaw l).toMeasure :=
    (Λ.integral_comp_comm hTi).symm
  rw [e]
  have h1 : ∫ _ : List ℕ, (1 - σ) ∂(shuffleLaw l).toMeasure ≤ ∫ o, Λ (T o) ∂(shuffleLaw l).toMeasure := by
    refine integral_mono_ae (integrable_const _) (Λ.integrable_comp hTi) ?_
    rw [Filter.EventuallyLE, ae_iff, PMF.toMeasure_apply_eq_zero_iff _ (MeasurableSpace.measurableSet_top)]
    refine Set.disjoint_left.mpr fun o ho hn => hn ?_
    have := h o (by
      classical
      rw [PMF.mem_support_iff, shuffleLaw_apply hl] at ho
      by_contra hc
      exact ho (if_neg hc))
    change 1 - σ ≤ (Vᴴ * T o).trace.re / d
    linarith
  rw [integral_const] at h1
  simp only [probReal_univ, one_smul] at h1
  linarith

/-- The mean overlap of the product with the `k`-th power of a unitary matrix. -/
theorem mean_overlap_of {F : Rng.Tape → Matrix (Fin d) (Fin d) ℂ} (hF : ∀ t, F t ∈ unitaryGroup (Fin d) ℂ)
    (hm : StronglyMeasurable F) {U : Matrix (Fin d) (Fin d) ℂ} (hU : U ∈ unitaryGroup (Fin d) ℂ) :
    Measurable (fun t => overlap U (F t)) ∧ Integrable (fun t => overlap U (F t)) (Rng.tapes B) ∧
      (Uᴴ * ∫ t, F t ∂Rng.tapes B).trace.re / d ≤ ∫ t, overlap U (F t) ∂Rng.tapes B := by
  let ℓ : Matrix (Fin d) (Fin d) ℂ →ₗ[ℂ] ℂ :=
    { toFun := fun A => (Uᴴ * A).trace
      map_add' := fun A B => by rw [Matrix.mul_add, Matrix.trace_add]
      map_smul' := fun a A => by rw [Matrix.mul_smul, Matrix.trace_smul]; rfl }
  let Λ : Matrix (Fin d) (Fin d) ℂ →L[ℂ] ℂ := LinearMap.toContinuousLinearMap ℓ
  have hΛ : ∀ A, overlap U A = ‖Λ A‖ / d := fun A => rfl
  have hmeas : StronglyMeasurable (fun t => overlap U (F t)) := by
    simp only [hΛ, div_eq_mul_inv]
    exact ((Λ.continuous.comp_stronglyMeasurable hm).norm).mul_const _
  have hint : Integrable (fun t => overlap U (F t)) (Rng.tapes B) :=
    Integrable.of_bound hmeas.aestronglyMeasurable 1 (Filter.Eventually.of_forall fun t => by
      rw [Real.norm_of_nonneg (overlap_nonneg _ _)]
      exact overlap_le_one hU (hF t))
  have hFi : Integrable F (Rng.tapes B) :=
    Integrable.of_bound hm.aestronglyMeasurable 1 (Filter.Eventually.of_forall fun t => norm_unitary_le (hF t))
  refine ⟨hmeas.measurable, hint, ?_⟩
  have h4 : overlap U (∫ t, F t ∂Rng.tapes B) ≤ ∫ t, overlap U (F t) ∂Rng.tapes B := by
    rw [hΛ, ← Λ.integral_comp_comm hFi]
    simp only [hΛ, integral_div]
    gcongr
    exact norm_integral_le_integral_norm _
  refine le_trans ?_ h4
  unfold overlap
  exact div_le_div_of_nonneg_right (Complex.re_le_norm _) (Nat.cast_nonneg d)

/-! ## The orders of a randomised Trotter sequence -/

namespace Hamiltonian

/-- The terms are visited in the orders reached by repeated shuffles. -/
theorem trotterVals_reshuffle {τ : Arith} {H : Hamiltonian} {ts : ℝ} {k : ℕ} {is : List ℕ} {r r' : Rng}
    {vs : List EntryVal} (h : H.trotterVals τ ts true k is r = (.ok vs, r')) :
    ∃ orders : List (List ℕ), reshuffle k is r = (.ok orders, r') ∧
      List.Forall₂ (H.TrotterEntry τ ts) orders.flatten vs := by
  induction k generalizing is vs r with
  | zero => cases h; exact ⟨[], rfl, .nil⟩
  | succ k ih =>
    unfold trotterVals at h
    obtain ⟨is', r1, h1, h⟩ := PyM.bind_eq_ok_iff.mp h
    obtain ⟨v1, r2, h2, h⟩ := PyM.bind_eq_ok_iff.mp h
    obtain ⟨more, r3, h3, h⟩ := PyM.bind_eq_ok_iff.mp h
    cases h
    obtain ⟨rfl, h4⟩ := trotterStepVals_ok h2
    obtain ⟨orders, g1, g2⟩ := ih h3
    refine ⟨is' :: orders, ?_, ?_⟩
    · unfold reshuffle
      rw [PyM.bind_of_ok (show Rng.shuffle is r = _ from h1), PyM.bind_of_ok g1]
      rfl
    · rw [List.flatten_cons]
      exact List.rel_append h4 g2

end Hamiltonian

end Stoq
