import Mathlib.Analysis.SpecialFunctions.Integrals.Basic
import Mathlib.Topology.Algebra.Order.Floor
import Verif.Proofs.Law
import Verif.Proofs.Qdrift

/-! # How many uniform numbers reach a given sum -/

namespace Stoq

open MeasureTheory ProbabilityTheory

local notation "I" => Set.Ico (0 : ℝ) 1

/-- The sum of the first `k` numbers with even position. -/
noncomputable def evenSum (ω : ℕ → I) (k : ℕ) : ℝ := ∑ i ∈ Finset.range k, (ω (2 * i) : ℝ)

theorem measurable_evenSum (k : ℕ) : Measurable fun ω : ℕ → I => evenSum ω k :=
  Finset.measurable_sum _ fun _ _ => measurable_subtype_coe.comp (measurable_pi_apply _)

theorem evenSum_zero (ω : ℕ → I) : evenSum ω 0 = 0 := rfl

theorem evenSum_succ (ω : ℕ → I) (k : ℕ) : evenSum ω (k + 1) = evenSum ω k + ω (2 * k) := Finset.sum_range_succ _ _

theorem evenSum_succ' (ω : ℕ → I) (k : ℕ) : evenSum ω (k + 1) = ω 0 + evenSum (fun i => ω (2 + i)) k := by
  unfold evenSum
  rw [Finset.sum_range_succ', add_comm]
  congr 1
  exact Finset.sum_congr rfl fun i _ => by rw [show 2 * (i + 1) = 2 + 2 * i by ring]

theorem evenSum_mono (ω : ℕ → I) : Monotone (evenSum ω) :=
  monotone_nat_of_le_succ fun k => by rw [evenSum_succ]; linarith [(ω (2 * k)).2.1]

theorem lintegral_peel {F : I → (ℕ → I) → ENNReal} (hF : Measurable (Function.uncurry F)) :
    ∫⁻ ω, F (ω 0) (fun i => ω (2 + i)) ∂uniformTape = ∫⁻ u, ∫⁻ ω, F u ω ∂uniformTape ∂uniformUnit := by
  have h1 := (measurePreserving_uncons uniformUnit)
  have h2 : MeasurePreserving (fun (ω : ℕ → I) (i : ℕ) => ω (1 + i)) uniformTape uniformTape :=
    measurePreserving_shift uniformUnit 1
  have hG : Measurable fun p : I × (ℕ → I) => F p.1 (fun i => p.2 (1 + i)) :=
    hF.comp (measurable_fst.prodMk (h2.measurable.comp measurable_snd))
  calc ∫⁻ ω, F (ω 0) (fun i => ω (2 + i)) ∂uniformTape
      = ∫⁻ ω, (fun p : I × (ℕ → I) => F p.1 (fun i => p.2 (1 + i))) (ω 0, fun i => ω (1 + i)) ∂uniformTape := by
        refine lintegral_congr fun ω => ?_
        simp only [← Nat.add_assoc, Nat.reduceAdd]
    _ = ∫⁻ p, F p.1 (fun i => p.2 (1 + i)) ∂(uniformUnit.prod uniformTape) := h1.lintegral_comp hG
    _ = ∫⁻ u, ∫⁻ ω, F u (fun i => ω (1 + i)) ∂uniformTape ∂uniformUnit := lintegral_prod _ hG.aemeasurable
    _ = ∫⁻ u, ∫⁻ ω, F u ω ∂uniformTape ∂uniformUnit :=
        lintegral_congr fun u => h2.lintegral_comp (hF.comp (measurable_const.prodMk measurable_id))

/-- The indicator of a sum below `x`. -/
noncomputable def below (ω : ℕ → I) (k : ℕ) (x : ℝ) : ENNReal := {ω | evenSum ω k < x}.indicator 1 ω

theorem measurableSet_below (k : ℕ) (x : ℝ) : MeasurableSet {ω : ℕ → I | evenSum ω k < x} :=
  measurableSet_lt (measurable_evenSum k) measurable_const

theorem below_succ (ω : ℕ → I) (k : ℕ) (x : ℝ) : below ω (k + 1) x = below (fun i => ω (2 + i)) k (x - ω 0) := by
  unfold below Set.indicator
  simp only [Set.mem_ofPred_eq, evenSum_succ', lt_sub_iff_add_lt', Pi.one_apply]

theorem measurable_below (k : ℕ) (x : ℝ) : Measurable fun p : I × (ℕ → I) => below p.2 k (x - p.1) := by
  have : (fun p : I × (ℕ → I) => below p.2 k (x - p.1)) =
      {p : I × (ℕ → I) | evenSum p.2 k < x - p.1}.indicator 1 := by
    funext p; simp [below, Set.indicator]
  rw [this]
  exact measurable_one.indicator (measurableSet_lt ((measurable_evenSum k).comp measurable_snd)
    (measurable_const.sub (measurable_subtype_coe.comp measurable_fst)))

theorem measurable_below_const (k : ℕ) (x : ℝ) : Measurable fun ω : ℕ → I => below ω k x :=
  measurable_one.indicator (measurableSet_below k x)

theorem lintegral_below (k : ℕ) (x : ℝ) : ∫⁻ ω, below ω k x ∂uniformTape = uniformTape {ω | evenSum ω k < x} :=
  lintegral_indicator_one (measurableSet_below k x)

theorem lintegral_below_succ (k : ℕ) (x : ℝ) :
    uniformTape {ω | evenSum ω (k + 1) < x} = ∫⁻ u : I, uniformTape {ω | evenSum ω k < x - u} ∂uniformUnit := by
  rw [← lintegral_below]
  simp only [below_succ]
  rw [lintegral_peel (F := fun u ω => below ω k (x - u)) (measurable_below k x)]
  exact lintegral_congr fun u => lintegral_below k _

/-! ## The distribution of the sum -/

theorem lintegral_power {x : ℝ} (hx : 0 ≤ x) (k : ℕ) :
    ∫⁻ u in Set.Ico 0 x, ENNReal.ofReal ((x - u) ^ k / k.factorial) = ENNReal.ofReal (x ^ (k + 1) / (k + 1).factorial) := by
  have hc : Continuous fun u : ℝ => (x - u) ^ k / k.factorial := by fun_prop
  rw [← ofReal_integral_eq_lintegral_ofReal]
  · congr 1
    rw [integral_Ico_eq_integral_Ioc, ← intervalIntegral.integral_of_le hx, intervalIntegral.integral_div,
      intervalIntegral.integral_comp_sub_left (fun u => u ^ k) x, sub_self, sub_zero, integral_pow, zero_pow (by omega),
      sub_zero, Nat.factorial_succ]
    push_cast
    field_simp
  · exact hc.integrableOn_Icc.mono_set Set.Ico_subset_Icc_self
  · refine (ae_restrict_iff' measurableSet_Ico).mpr (Filter.Eventually.of_forall fun u hu => ?_)
    exact div_nonneg (pow_nonneg (by linarith [hu.2]) _) (by positivity)

/-- The probability that `k` uniform numbers have a sum below `x` is at most `x ^ k / k!`. -/
theorem evenSum_tail (k : ℕ) {x : ℝ} (hx : 0 < x) :
    uniformTape {ω | evenSum ω k < x} ≤ ENNReal.ofReal (x ^ k / k.factorial) := by
  induction k generalizing x with
  | zero => simpa using prob_le_one
  | succ k ih =>
    rw [lintegral_below_succ]
    have h1 : ∀ u : I, uniformTape {ω | evenSum ω k < x - u} ≤
        (Set.Ico 0 x).indicator (fun u => ENNReal.ofReal ((x - u) ^ k / k.factorial)) (u : ℝ) := by
      intro u
      by_cases h : (u : ℝ) < x
      · rw [Set.indicator_of_mem (show (u : ℝ) ∈ Set.Ico 0 x from ⟨u.2.1, h⟩)]
        exact ih (by linarith)
      · have : {ω : ℕ → I | evenSum ω k < x - u} = ∅ := by
          refine Set.eq_empty_of_forall_notMem fun ω hω => ?_
          have h2 : evenSum ω k < x - u := hω
          have h3 := evenSum_mono ω (Nat.zero_le k)
          rw [evenSum_zero] at h3
          linarith
        rw [this, measure_empty]
        exact zero_le
    calc ∫⁻ u : I, uniformTape {ω | evenSum ω k < x - u} ∂uniformUnit
        ≤ ∫⁻ u : I, (Set.Ico 0 x).indicator (fun u => ENNReal.ofReal ((x - u) ^ k / k.factorial)) (u : ℝ) ∂uniformUnit :=
          lintegral_mono h1
      _ = ∫⁻ u in Set.Ico 0 1, (Set.Ico 0 x).indicator (fun u => ENNReal.ofReal ((x - u) ^ k / k.factorial)) u :=
          lintegral_subtype_comap measurableSet_Ico _
      _ ≤ ∫⁻ u, (Set.Ico 0 x).indicator (fun u => ENNReal.ofReal ((x - u) ^ k / k.factorial)) u :=
          setLIntegral_le_lintegral _ _
      _ = ENNReal.ofReal (x ^ (k + 1) / (k + 1).factorial) := by
          rw [lintegral_indicator measurableSet_Ico, lintegral_power hx.le]

theorem lintegral_unit : ∫⁻ u : I, ENNReal.ofReal u ∂uniformUnit = 1 / 2 := by
  have h := lintegral_power zero_le_one 1
  have e : ∫⁻ u : I, ENNReal.ofReal u ∂uniformUnit = ∫⁻ u in Set.Ico (0 : ℝ) 1, ENNReal.ofReal u :=
    lintegral_subtype_comap measurableSet_Ico _
  rw [e, ← ofReal_integral_eq_lintegral_ofReal]
  · rw [integral_Ico_eq_integral_Ioc, ← intervalIntegral.integral_of_le zero_le_one, integral_id]
    norm_num
    rw [ENNReal.ofReal_div_of_pos (by norm_num)]
    simp
  · exact continuous_id.integrableOn_Icc.mono_set Set.Ico_subset_Icc_self
  · exact (ae_restrict_iff' measurableSet_Ico).mpr (Filter.Eventually.of_forall fun u hu => hu.1)

/-- The number drawn next is independent of the sum so far. -/
theorem lintegral_next (k : ℕ) (x : ℝ) :
    ∫⁻ ω, ENNReal.ofReal (ω (2 * k)) * below ω k x ∂uniformTape = 1 / 2 * uniformTape {ω | evenSum ω k < x} := by
  induction k generalizing x with
  | zero =>
    have h1 := (measurePreserving_tape 0).lintegral_comp (f := fun u : I => ENNReal.ofReal u)
      (ENNReal.measurable_ofReal.comp measurable_subtype_coe)
    rw [lintegral_unit] at h1
    by_cases hx : 0 < x
    · simp only [below, Set.indicator, Set.mem_ofPred_eq, evenSum_zero, hx, if_true, Pi.one_apply, mul_one, mul_zero]
      rw [h1, show {ω : ℕ → I | True} = Set.univ from rfl, measure_univ, mul_one]
    · simp [below, Set.indicator, evenSum_zero, hx]
  | succ k ih =>
    have hm : Measurable (Function.uncurry fun (u : I) (ω : ℕ → I) => ENNReal.ofReal (ω (2 * k)) * below ω k (x - u)) :=
      Measurable.mul (f := fun p : I × (ℕ → I) => ENNReal.ofReal (p.2 (2 * k)))
        (ENNReal.measurable_ofReal.comp (measurable_subtype_coe.comp ((measurable_pi_apply _).comp measurable_snd)))
        (measurable_below k x)
    have h := lintegral_peel hm
    calc ∫⁻ ω, ENNReal.ofReal (ω (2 * (k + 1))) * below ω (k + 1) x ∂uniformTape
        = ∫⁻ ω, ENNReal.ofReal (ω (2 + 2 * k)) * below (fun i => ω (2 + i)) k (x - ω 0) ∂uniformTape := by
          refine lintegral_congr fun ω => ?_
          rw [below_succ, show 2 * (k + 1) = 2 + 2 * k by ring]
      _ = ∫⁻ u : I, 1 / 2 * uniformTape {ω | evenSum ω k < x - u} ∂uniformUnit := by
          rw [h]; exact lintegral_congr fun u => ih _
      _ = 1 / 2 * uniformTape {ω | evenSum ω (k + 1) < x} := by
          rw [lintegral_const_mul' _ _ (by simp), ← lintegral_below_succ]

/-! ## The number of draws -/

/-- How many numbers are needed for a sum of at least `x`. -/
noncomputable def needed (x : ℝ) (ω : ℕ → I) : ℕ := sInf {k | x ≤ evenSum ω k}

theorem needed_spec {x : ℝ} {ω : ℕ → I} (h : ∃ k, x ≤ evenSum ω k) (k : ℕ) : k < needed x ω ↔ evenSum ω k < x := by
  constructor
  · intro hk
    by_contra hn
    exact absurd (Nat.sInf_le (s := {k | x ≤ evenSum ω k}) (not_lt.mp hn)) (not_le.mpr hk)
  · intro hk
    by_contra hn
    have h1 : x ≤ evenSum ω (needed x ω) := Nat.sInf_mem (s := {k | x ≤ evenSum ω k}) h
    linarith [evenSum_mono ω (not_lt.mp hn)]

theorem ae_reached (x : ℝ) : ∀ᵐ ω ∂uniformTape, ∃ k, x ≤ evenSum ω k := by
  rcases le_or_gt x 0 with hx | hx
  · exact Filter.Eventually.of_forall fun ω => ⟨0, by rw [evenSum_zero]; exact hx⟩
  have h0 : uniformTape {ω | ¬ ∃ k, x ≤ evenSum ω k} = 0 := by
    refine le_antisymm (ge_of_tendsto' (x := Filter.atTop) (a := (0 : ENNReal)) ?_ fun k =>
      (measure_mono fun ω hω => ?_).trans (evenSum_tail k hx)) zero_le
    · have := ENNReal.tendsto_ofReal (FloorSemiring.tendsto_pow_div_factorial_atTop x)
      rwa [ENNReal.ofReal_zero] at this
    · simp only [not_exists, not_le, Set.mem_ofPred_eq] at hω ⊢
      exact hω k
  exact h0

theorem measurable_needed (x : ℝ) : Measurable (needed x) := by
  refine measurable_to_countable' fun k => ?_
  have hle : ∀ j, MeasurableSet {ω : ℕ → I | x ≤ evenSum ω j} :=
    fun j => measurableSet_le measurable_const (measurable_evenSum j)
  have hex : MeasurableSet {ω : ℕ → I | ∃ j, x ≤ evenSum ω j} := by
    rw [show {ω : ℕ → I | ∃ j, x ≤ evenSum ω j} = ⋃ j, {ω | x ≤ evenSum ω j} by ext; simp]
    exact MeasurableSet.iUnion hle
  have e : needed x ⁻¹' {k} = ({ω | ∃ j, x ≤ evenSum ω j} ∩ ({ω | x ≤ evenSum ω k} ∩ ⋂ j ∈ Finset.range k,
      {ω | x ≤ evenSum ω j}ᶜ)) ∪ ({ω : ℕ → I | ∃ j, x ≤ evenSum ω j}ᶜ ∩ {_ω | k = 0}) := by
    ext ω
    simp only [Set.mem_preimage, Set.mem_singleton_iff, Set.mem_union, Set.mem_inter_iff, Set.mem_ofPred_eq,
      Set.mem_iInter, Finset.mem_range, Set.mem_compl_iff, not_le]
    by_cases h : ∃ j, x ≤ evenSum ω j
    · have hspec := needed_spec h
      simp only [h, true_and, not_true_eq_false, false_and, or_false]
      constructor
      · rintro rfl
        exact ⟨Nat.sInf_mem (s := {k | x ≤ evenSum ω k}) h, fun j hj => (hspec j).mp hj⟩
      · rintro ⟨h1, h2⟩
        rcases lt_trichotomy (needed x ω) k with hlt | heq | hgt
        · have := (hspec (needed x ω)).mpr (h2 _ hlt)
          exact absurd this (lt_irrefl _)
        · exact heq
        · have := (hspec k).mp hgt
          linarith
    · simp only [h, false_and, not_false_eq_true, true_and, false_or]
      have : needed x ω = 0 := by
        unfold needed
        rw [show {k | x ≤ evenSum ω k} = ∅ from Set.eq_empty_of_forall_notMem fun j hj => h ⟨j, hj⟩, Nat.sInf_empty]
      rw [this, eq_comm]
  rw [e]
  refine (hex.inter ((hle k).inter (Finset.measurableSet_biInter _ fun j _ => (hle j).compl))).union
    (hex.compl.inter (MeasurableSet.const _))

theorem needed_tail {x : ℝ} (hx : 0 < x) (k : ℕ) :
    uniformTape {ω | k < needed x ω} ≤ ENNReal.ofReal (x ^ k / k.factorial) := by
  refine (measure_mono_ae ?_).trans (evenSum_tail k hx)
  filter_upwards [ae_reached x] with ω hω h
  exact (needed_spec hω k).mp h

theorem needed_eq_tsum {x : ℝ} {ω : ℕ → I} (h : ∃ k, x ≤ evenSum ω k) : (needed x ω : ENNReal) = ∑' k, below ω k x := by
  have h1 : ∀ k, below ω k x = if k < needed x ω then 1 else 0 := by
    intro k
    unfold below Set.indicator
    simp only [Set.mem_ofPred_eq, needed_spec h k, Pi.one_apply]
  simp only [h1]
  rw [tsum_eq_sum (s := Finset.range (needed x ω)) fun k hk => by simpa using hk]
  rw [Finset.sum_congr rfl fun k hk => if_pos (Finset.mem_range.mp hk)]
  simp

theorem lintegral_needed (x : ℝ) :
    ∫⁻ ω, (needed x ω : ENNReal) ∂uniformTape = ∑' k, uniformTape {ω | evenSum ω k < x} := by
  rw [lintegral_congr_ae ((ae_reached x).mono fun ω h => needed_eq_tsum h),
    lintegral_tsum fun k => (measurable_below_const k x).aemeasurable]
  exact tsum_congr fun k => lintegral_below k x

/-- The sum when it is reached. -/
theorem reached_sum {x : ℝ} {ω : ℕ → I} (h : ∃ k, x ≤ evenSum ω k) :
    ∑' k, ENNReal.ofReal (ω (2 * k)) * below ω k x = ENNReal.ofReal (evenSum ω (needed x ω)) := by
  have h1 : ∀ k, ENNReal.ofReal (ω (2 * k)) * below ω k x =
      if k < needed x ω then ENNReal.ofReal (ω (2 * k)) else 0 := by
    intro k
    unfold below Set.indicator
    simp only [Set.mem_ofPred_eq, needed_spec h k, Pi.one_apply, mul_ite, mul_one, mul_zero]
  simp only [h1]
  rw [tsum_eq_sum (s := Finset.range (needed x ω)) fun k hk => if_neg (by simpa using hk),
    Finset.sum_congr rfl fun k hk => if_pos (Finset.mem_range.mp hk), evenSum,
    ENNReal.ofReal_sum_of_nonneg fun i _ => (ω (2 * i)).2.1]

/-- On average between `2 x` and `2 x + 2` numbers are needed (Wald's identity). -/
theorem needed_mean {x : ℝ} (hx : 0 < x) :
    ENNReal.ofReal (2 * x) ≤ ∫⁻ ω, (needed x ω : ENNReal) ∂uniformTape ∧
      ∫⁻ ω, (needed x ω : ENNReal) ∂uniformTape ≤ ENNReal.ofReal (2 * x + 2) := by
  have key : ∫⁻ ω, ENNReal.ofReal (evenSum ω (needed x ω)) ∂uniformTape =
      1 / 2 * ∫⁻ ω, (needed x ω : ENNReal) ∂uniformTape := by
    rw [lintegral_needed, ← ENNReal.tsum_mul_left]
    rw [lintegral_congr_ae ((ae_reached x).mono fun ω h => (reached_sum h).symm), lintegral_tsum fun k => ?_]
    · exact tsum_congr fun k => lintegral_next k x
    · exact (Measurable.mul (f := fun ω : ℕ → I => ENNReal.ofReal (ω (2 * k)))
        (ENNReal.measurable_ofReal.comp (measurable_subtype_coe.comp (measurable_pi_apply _)))
        (measurable_below_const k x)).aemeasurable
  have h2 : ∫⁻ ω, (needed x ω : ENNReal) ∂uniformTape =
      2 * ∫⁻ ω, ENNReal.ofReal (evenSum ω (needed x ω)) ∂uniformTape := by
    rw [key, ← mul_assoc, one_div, ENNReal.mul_inv_cancel (by norm_num) (by norm_num), one_mul]
  have h3 : ENNReal.ofReal x ≤ ∫⁻ ω, ENNReal.ofReal (evenSum ω (needed x ω)) ∂uniformTape := by
    have : ∫⁻ _ω, ENNReal.ofReal x ∂uniformTape = ENNReal.ofReal x := by simp
    rw [← this]
    refine lintegral_mono_ae ((ae_reached x).mono fun ω h => ENNReal.ofReal_le_ofReal ?_)
    exact Nat.sInf_mem (s := {k | x ≤ evenSum ω k}) h
  have h4 : ∫⁻ ω, ENNReal.ofReal (evenSum ω (needed x ω)) ∂uniformTape ≤ ENNReal.ofReal (x + 1) := by
    have : ∫⁻ _ω, ENNReal.ofReal (x + 1) ∂uniformTape = ENNReal.ofReal (x + 1) := by simp
    rw [← this]
    refine lintegral_mono_ae ((ae_reached x).mono fun ω h => ENNReal.ofReal_le_ofReal ?_)
    rcases hk : needed x ω with _ | k
    · rw [evenSum_zero]; linarith
    · have h5 := (needed_spec h k).mp (by omega)
      rw [evenSum_succ]
      linarith [(ω (2 * k)).2.2]
  rw [h2, show (2 : ENNReal) = ENNReal.ofReal 2 by simp, show 2 * x + 2 = 2 * (x + 1) by ring,
    ENNReal.ofReal_mul (by norm_num), ENNReal.ofReal_mul (by norm_num)]
  exact ⟨mul_le_mul_right h3 _, mul_le_mul_right h4 _⟩

end Stoq
