import Mathlib.Probability.Independence.InfinitePi
import Mathlib.MeasureTheory.Integral.Bochner.SumMeasure
import Verif.Spec.Probability
import Verif.Spec.Hamiltonian
import Verif.Proofs.Draws

/-!
# Sums over independent uniform numbers
-/

namespace Stoq

open MeasureTheory ProbabilityTheory

local notation "I" => Set.Ico (0 : ℝ) 1

theorem measurePreserving_tape (i : ℕ) :
    MeasurePreserving (fun ω : ℕ → I => ω i) uniformTape uniformUnit :=
  measurePreserving_eval_infinitePi (fun _ => uniformUnit) i

/-- A measurable function with finitely many values, applied to one uniform number. -/
theorem memLp_of_bounded {g : I → ℝ} (hg : Measurable g) {C : ℝ} (hC : ∀ u, |g u| ≤ C) :
    MemLp g 2 uniformUnit :=
  MemLp.of_bound hg.aestronglyMeasurable C (Filter.Eventually.of_forall hC)

theorem tape_memLp {g : I → ℝ} (hg : MemLp g 2 uniformUnit) (i : ℕ) :
    MemLp (fun ω : ℕ → I => g (ω i)) 2 uniformTape := hg.comp_measurePreserving (measurePreserving_tape i)

theorem tape_integral {g : I → ℝ} (hg : Measurable g) (i : ℕ) :
    ∫ ω, g (ω i) ∂uniformTape = ∫ u, g u ∂uniformUnit := by
  rw [← (measurePreserving_tape i).map_eq, integral_map (measurePreserving_tape i).measurable.aemeasurable
    hg.aestronglyMeasurable]

theorem tape_variance {g : I → ℝ} (hg : Measurable g) (i : ℕ) :
    Var[fun ω : ℕ → I => g (ω i); uniformTape] = Var[g; uniformUnit] := by
  rw [← (measurePreserving_tape i).map_eq]
  exact (variance_map hg.aemeasurable (measurePreserving_tape i).measurable.aemeasurable).symm

/-- The mean and the variance of an affine function of a sum over consecutive independent uniform numbers. -/
theorem Rng.Estimates.of_sum {m : PyM Rng ℝ} {g : I → ℝ} (hg : Measurable g) {C : ℝ} (hC : ∀ u, |g u| ≤ C)
    (K off : ℕ) (c d : ℝ)
    (h : ∀ ω nat upos npos, (m ⟨ω, nat, upos, npos⟩).1 =
      .ok (c * ∑ k ∈ Finset.range K, g (ω (upos + off + k)) + d)) :
    Rng.Estimates m (c * (K * ∫ u, g u ∂uniformUnit) + d) (c ^ 2 * (K * Var[g; uniformUnit])) := by
  intro nat upos npos
  have hm := memLp_of_bounded hg hC
  have hmem : ∀ k ∈ Finset.range K, MemLp (fun ω : ℕ → I => g (ω (upos + off + k))) 2 uniformTape :=
    fun k _ => tape_memLp hm _
  have hsum : MemLp (fun ω : ℕ → I => ∑ k ∈ Finset.range K, g (ω (upos + off + k))) 2 uniformTape :=
    memLp_finsetSum _ hmem
  have hmeas : Measurable fun ω : ℕ → I => ∑ k ∈ Finset.range K, g (ω (upos + off + k)) :=
    Finset.measurable_sum _ fun k _ => hg.comp (measurable_pi_apply _)
  refine ⟨fun ω => c * ∑ k ∈ Finset.range K, g (ω (upos + off + k)) + d, fun ω => h ω nat upos npos,
    (hmeas.const_mul c).add_const d, (hsum.const_mul c).add (memLp_const d), ?_, ?_⟩
  · rw [integral_add ((hsum.const_mul c).integrable one_le_two) (integrable_const d), integral_const_mul,
      integral_finsetSum _ fun k hk => (hmem k hk).integrable one_le_two]
    simp only [tape_integral hg, Finset.sum_const, Finset.card_range, nsmul_eq_mul, integral_const,
      probReal_univ, one_smul]
  · rw [variance_add_const (hmeas.const_mul c).aestronglyMeasurable, variance_const_mul]
    congr 1
    have hind : iIndepFun (fun (i : ℕ) (ω : ℕ → I) => g (ω i)) uniformTape :=
      iIndepFun_infinitePi (P := fun _ => uniformUnit) (X := fun _ => g) fun _ => hg
    have key : (fun ω : ℕ → I => ∑ k ∈ Finset.range K, g (ω (upos + off + k))) =
        ∑ k ∈ Finset.range K, fun ω : ℕ → I => g (ω (upos + off + k)) := by
      funext ω; rw [Finset.sum_apply]
    rw [key, IndepFun.variance_sum hmem]
    · simp only [tape_variance hg, Finset.sum_const, Finset.card_range, nsmul_eq_mul]
    · intro i _ j _ hij
      exact hind.indepFun (i := upos + off + i) (j := upos + off + j) (by omega)

/-! ## One uniform number -/

theorem uniformUnit_interval {a b : ℝ} (ha : 0 ≤ a) (hab : a ≤ b) (hb : b ≤ 1) :
    uniformUnit.real {u : I | a ≤ u ∧ (u : ℝ) < b} = b - a := by
  have h : Subtype.val '' {u : I | a ≤ u ∧ (u : ℝ) < b} = Set.Ico a b := by
    ext x
    constructor
    · rintro ⟨u, hu, rfl⟩; exact hu
    · intro hx; exact ⟨⟨x, ha.trans hx.1, hx.2.trans_le hb⟩, hx, rfl⟩
  rw [Measure.real, uniformUnit, comap_subtype_coe_apply measurableSet_Ico, h, Real.volume_Ico,
    ENNReal.toReal_ofReal (sub_nonneg.mpr hab)]

theorem measurableSet_interval (a b : ℝ) : MeasurableSet {u : I | a ≤ u ∧ (u : ℝ) < b} :=
  measurable_subtype_coe measurableSet_Ico

/-- A drawing with the probabilities `p` picks `i` with the probability `p i`. -/
theorem uniformUnit_chosenBy {n : ℕ} {p : List ℝ} (h : Rng.ValidP n p) {i : ℕ} (hi : i < p.length) :
    MeasurableSet {u : I | ChosenBy p u i} ∧ uniformUnit.real {u : I | ChosenBy p u i} = p[i] / p.sum := by
  have hs := h.sum_pos
  have hmono : (p.take i).sum ≤ (p.take (i + 1)).sum := by
    rw [List.take_succ_eq_append_getElem hi, List.sum_append, List.sum_singleton]
    linarith [h.nonneg _ (List.getElem_mem hi)]
  have h0 : 0 ≤ (p.take i).sum := List.sum_nonneg fun x hx => h.nonneg x (List.mem_of_mem_take hx)
  have h1 : (p.take (i + 1)).sum ≤ p.sum := by
    have h2 : 0 ≤ (p.drop (i + 1)).sum := List.sum_nonneg fun x hx => h.nonneg x (List.mem_of_mem_drop hx)
    have h3 := congrArg List.sum (List.take_append_drop (i + 1) p)
    rw [List.sum_append] at h3
    linarith
  have key : {u : I | ChosenBy p u i} =
      {u : I | (p.take i).sum / p.sum ≤ u ∧ (u : ℝ) < (p.take (i + 1)).sum / p.sum} := by
    ext u
    simp only [ChosenBy, Set.mem_ofPred_eq, div_le_iff₀ hs, lt_div_iff₀ hs, hi, true_and]
  rw [key]
  refine ⟨measurableSet_interval _ _, ?_⟩
  rw [uniformUnit_interval (div_nonneg h0 hs.le) (by gcongr) ((div_le_one hs).mpr h1), ← sub_div,
    List.take_succ_eq_append_getElem hi, List.sum_append, List.sum_singleton, add_sub_cancel_left]

/-- The mean of a function of a drawn index. -/
theorem uniformUnit_draw {D : ℕ} {p : List ℝ} (h : Rng.ValidP D p) {shot : I → Fin D}
    (hshot : ∀ u : I, ChosenBy p u (shot u)) (a : Fin D → ℝ) :
    Measurable shot ∧ ∫ u, a (shot u) ∂uniformUnit = ∑ x : Fin D, (p[x.val]'(by rw [h.len]; exact x.2)) / p.sum * a x := by
  have hpre : ∀ x : Fin D, shot ⁻¹' {x} = {u : I | ChosenBy p u x} := by
    intro x
    ext u
    simp only [Set.mem_preimage, Set.mem_singleton_iff, Set.mem_ofPred_eq]
    constructor
    · rintro rfl; exact hshot u
    · intro hu
      exact Fin.ext (((Rng.chosenBy_iff h u).mp (hshot u)).symm.trans ((Rng.chosenBy_iff h u).mp hu))
  have hm : Measurable shot := measurable_to_countable' fun x => by
    rw [hpre]; exact (uniformUnit_chosenBy h (by rw [h.len]; exact x.2)).1
  refine ⟨hm, ?_⟩
  have : IsProbabilityMeasure (uniformUnit.map shot) := Measure.isProbabilityMeasure_map hm.aemeasurable
  have e : ∫ u, a (shot u) ∂uniformUnit = ∫ x, a x ∂(uniformUnit.map shot) :=
    (integral_map hm.aemeasurable (Measurable.of_discrete).aestronglyMeasurable).symm
  rw [e, integral_fintype Integrable.of_finite]
  refine Finset.sum_congr rfl fun x _ => ?_
  rw [map_measureReal_apply hm (MeasurableSet.singleton x), hpre,
    (uniformUnit_chosenBy h (by rw [h.len]; exact x.2)).2, smul_eq_mul]

/-- The variance of a function of a drawn index. -/
theorem uniformUnit_draw_variance {D : ℕ} {p : List ℝ} (h : Rng.ValidP D p) {shot : I → Fin D}
    (hshot : ∀ u : I, ChosenBy p u (shot u)) (a : Fin D → ℝ) :
    Var[fun u => a (shot u); uniformUnit] =
      ∑ x : Fin D, (p[x.val]'(by rw [h.len]; exact x.2)) / p.sum * a x ^ 2 -
        (∑ x : Fin D, (p[x.val]'(by rw [h.len]; exact x.2)) / p.sum * a x) ^ 2 := by
  obtain ⟨hm, h1⟩ := uniformUnit_draw h hshot a
  have h2 := (uniformUnit_draw h hshot fun x => a x ^ 2).2
  obtain ⟨C, hC⟩ : ∃ C, ∀ x, |a x| ≤ C := by
    obtain ⟨C, hC⟩ := (Set.finite_range fun x => |a x|).bddAbove
    exact ⟨C, fun x => hC ⟨x, rfl⟩⟩
  have hv := variance_eq_sub (memLp_of_bounded (g := fun u => a (shot u))
    ((Measurable.of_discrete (f := a)).comp hm) fun u => hC _)
  rw [hv, h1, ← h2]
  rfl

end Stoq
