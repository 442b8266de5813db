import Verif.Proofs.Trotter
import Verif.Proofs.Law
import Mathlib.MeasureTheory.Integral.Prod
import Mathlib.Analysis.Normed.Operator.Mul

/-! # Means of products of randomly chosen unitary matrices -/

namespace Stoq

open Matrix MeasureTheory
open scoped Matrix.Norms.L2Operator

variable {d k : ℕ}

/-- What the observable `O` becomes when the gates with the indices `i 0, …, i (N - 1)` come before it. -/
noncomputable def pulled (U : Fin k → Matrix (Fin d) (Fin d) ℂ) (O : Matrix (Fin d) (Fin d) ℂ) :
    ℕ → (ℕ → Fin k) → Matrix (Fin d) (Fin d) ℂ
  | 0, _ => O
  | N + 1, i => (U (i 0))ᴴ * pulled U O N (fun j => i (1 + j)) * U (i 0)

/-- The mean of an observable pulled through one randomly chosen gate. -/
noncomputable def meanPull (p : Fin k → ℝ) (U : Fin k → Matrix (Fin d) (Fin d) ℂ) (O : Matrix (Fin d) (Fin d) ℂ) :
    Matrix (Fin d) (Fin d) ℂ := ∑ i, p i • ((U i)ᴴ * O * U i)

theorem pulled_eq (U : Fin k → Matrix (Fin d) (Fin d) ℂ) (O : Matrix (Fin d) (Fin d) ℂ) (N : ℕ) (i : ℕ → Fin k) :
    pulled U O N i = (((List.range N).map fun j => U (i j)).reverse.prod)ᴴ * O *
      ((List.range N).map fun j => U (i j)).reverse.prod := by
  induction N generalizing i with
  | zero => simp [pulled]
  | succ N ih =>
    rw [pulled, ih, List.range_succ_eq_map, List.map_cons, List.reverse_cons, List.prod_append, List.map_map]
    have : ((fun j => U (i j)) ∘ Nat.succ) = fun j => U (i (1 + j)) := by
      funext j; rw [Function.comp, Nat.succ_eq_add_one, add_comm]
    rw [this, List.prod_singleton, conjTranspose_mul]
    simp only [Matrix.mul_assoc]

section Norm

variable {U : Fin k → Matrix (Fin d) (Fin d) ℂ} (hU : ∀ i, U i ∈ unitaryGroup (Fin d) ℂ)

include hU

theorem norm_conj_le {V : Matrix (Fin d) (Fin d) ℂ} (hV : V ∈ unitaryGroup (Fin d) ℂ) (O : Matrix (Fin d) (Fin d) ℂ) :
    ‖Vᴴ * O * V‖ ≤ ‖O‖ := by
  have := hU
  have h1 := norm_unitary_le hV
  have h2 : ‖Vᴴ‖ ≤ 1 := by rw [l2_opNorm_conjTranspose]; exact h1
  calc ‖Vᴴ * O * V‖ ≤ ‖Vᴴ‖ * ‖O‖ * ‖V‖ := (norm_mul_le _ _).trans (by gcongr; exact norm_mul_le _ _)
    _ ≤ 1 * ‖O‖ * 1 := by gcongr
    _ = ‖O‖ := by ring

theorem norm_pulled_le (O : Matrix (Fin d) (Fin d) ℂ) (N : ℕ) (i : ℕ → Fin k) : ‖pulled U O N i‖ ≤ ‖O‖ := by
  induction N generalizing i with
  | zero => exact le_rfl
  | succ N ih => exact (norm_conj_le hU (hU _) _).trans (ih _)

theorem norm_meanPull_le {p : Fin k → ℝ} (hp : ∀ i, 0 ≤ p i) (hs : ∑ i, p i = 1) (O : Matrix (Fin d) (Fin d) ℂ) :
    ‖meanPull p U O‖ ≤ ‖O‖ := by
  unfold meanPull
  calc ‖∑ i, p i • ((U i)ᴴ * O * U i)‖ ≤ ∑ i, ‖p i • ((U i)ᴴ * O * U i)‖ := norm_sum_le _ _
    _ ≤ ∑ i, p i * ‖O‖ := by
        gcongr with i
        rw [norm_smul, Real.norm_of_nonneg (hp i)]
        gcongr
        · exact hp i
        · exact norm_conj_le hU (hU i) O
    _ = ‖O‖ := by rw [← Finset.sum_mul, hs, one_mul]

/-- The error of many steps is at most the sum of the errors of the steps. -/
theorem norm_iterate_sub_le {p : Fin k → ℝ} (hp : ∀ i, 0 ≤ p i) (hs : ∑ i, p i = 1) {V : Matrix (Fin d) (Fin d) ℂ}
    (hV : V ∈ unitaryGroup (Fin d) ℂ) {ε : ℝ} (h : ∀ O, ‖meanPull p U O - Vᴴ * O * V‖ ≤ ε * ‖O‖) (N : ℕ)
    (O : Matrix (Fin d) (Fin d) ℂ) :
    ‖(meanPull p U)^[N] O - (V ^ N)ᴴ * O * V ^ N‖ ≤ N * (ε * ‖O‖) := by
  induction N with
  | zero => simp
  | succ N ih =>
    have hsub : ∀ A B, meanPull p U (A - B) = meanPull p U A - meanPull p U B := by
      intro A B
      unfold meanPull
      rw [← Finset.sum_sub_distrib]
      refine Finset.sum_congr rfl fun i _ => ?_
      rw [Matrix.mul_sub, Matrix.sub_mul, smul_sub]
    have e : (V ^ (N + 1))ᴴ * O * V ^ (N + 1) = Vᴴ * ((V ^ N)ᴴ * O * V ^ N) * V := by
      rw [pow_succ, conjTranspose_mul]
      simp only [Matrix.mul_assoc]
    rw [Function.iterate_succ_apply', e]
    have h1 := norm_meanPull_le hU hp hs ((meanPull p U)^[N] O - (V ^ N)ᴴ * O * V ^ N)
    rw [hsub] at h1
    have h2 := h ((V ^ N)ᴴ * O * V ^ N)
    have h3 : ‖(V ^ N)ᴴ * O * V ^ N‖ ≤ ‖O‖ := norm_conj_le hU (pow_mem hV N) O
    have h0 : 0 ≤ ε ∨ ‖O‖ = 0 := by
      by_contra hc
      push Not at hc
      have := h O
      have hpos : 0 < ‖O‖ := lt_of_le_of_ne (norm_nonneg _) (Ne.symm hc.2)
      have := (norm_nonneg _).trans this
      nlinarith [mul_neg_of_neg_of_pos hc.1 hpos]
    have h4 : ε * ‖(V ^ N)ᴴ * O * V ^ N‖ ≤ ε * ‖O‖ := by
      rcases h0 with h0 | h0
      · gcongr
      · have : ‖(V ^ N)ᴴ * O * V ^ N‖ = 0 := le_antisymm (h0 ▸ h3) (norm_nonneg _)
        rw [this, h0]
    calc _ = ‖(meanPull p U ((meanPull p U)^[N] O) - meanPull p U ((V ^ N)ᴴ * O * V ^ N)) +
          (meanPull p U ((V ^ N)ᴴ * O * V ^ N) - Vᴴ * ((V ^ N)ᴴ * O * V ^ N) * V)‖ := by congr 1; abel
      _ ≤ N * (ε * ‖O‖) + ε * ‖O‖ := (norm_add_le _ _).trans (add_le_add (h1.trans ih) (h2.trans h4))
      _ = ((N + 1 : ℕ) : ℝ) * (ε * ‖O‖) := by push_cast; ring

end Norm

section Generators

/-- The second order error of a conjugation. -/
theorem norm_conj_sub_le {x : Matrix (Fin d) (Fin d) ℂ} (hd : 0 < d) (hx : xᴴ = -x)
    (hu : NormedSpace.exp x ∈ unitaryGroup (Fin d) ℂ) (O : Matrix (Fin d) (Fin d) ℂ) :
    ‖(NormedSpace.exp x)ᴴ * O * NormedSpace.exp x - O - (O * x - x * O)‖ ≤ 2 * ‖x‖ ^ 2 * Real.exp ‖x‖ * ‖O‖ := by
  have : Nonempty (Fin d) := ⟨⟨0, hd⟩⟩
  have hct : (NormedSpace.exp x)ᴴ = NormedSpace.exp (-x) := by rw [← hx, Matrix.exp_conjTranspose]
  set A := NormedSpace.exp (-x) with hA
  set B := NormedSpace.exp x with hB
  have hxn := norm_nonneg x
  have r1 : ‖A - 1 + x‖ ≤ ‖x‖ ^ 2 / 2 * Real.exp ‖x‖ := by
    have := norm_exp_sub_le (-x)
    rw [norm_neg, sub_neg_eq_add] at this
    exact this.trans (exp_sub_le_half hxn)
  have r2 : ‖B - 1 - x‖ ≤ ‖x‖ ^ 2 / 2 * Real.exp ‖x‖ := (norm_exp_sub_le x).trans (exp_sub_le_half hxn)
  have r3 : ‖B - 1‖ ≤ ‖x‖ * Real.exp ‖x‖ := by
    have h1 := norm_exp_sub_le x
    have h2 : ‖B - 1‖ ≤ Real.exp ‖x‖ - 1 := by
      calc ‖B - 1‖ = ‖(B - 1 - x) + x‖ := by congr 1; abel
        _ ≤ ‖B - 1 - x‖ + ‖x‖ := norm_add_le _ _
        _ ≤ _ := by linarith
    have h3 : Real.exp ‖x‖ * (1 - ‖x‖) ≤ 1 := by
      have := Real.add_one_le_exp (-‖x‖)
      calc Real.exp ‖x‖ * (1 - ‖x‖) ≤ Real.exp ‖x‖ * Real.exp (-‖x‖) := by gcongr; linarith
        _ = 1 := by rw [← Real.exp_add, add_neg_cancel, Real.exp_zero]
    nlinarith
  have hBn : ‖B‖ ≤ 1 := norm_unitary_le hu
  rw [hct]
  have e : A * O * B - O - (O * x - x * O) = (A - 1 + x) * O * B + (O * (B - 1 - x) - x * O * (B - 1)) := by
    noncomm_ring
  rw [e]
  calc _ ≤ ‖A - 1 + x‖ * ‖O‖ * ‖B‖ + (‖O‖ * ‖B - 1 - x‖ + ‖x‖ * ‖O‖ * ‖B - 1‖) := by
        refine (norm_add_le _ _).trans (add_le_add ?_ ((norm_sub_le _ _).trans (add_le_add (norm_mul_le _ _) ?_)))
        · exact (norm_mul_le _ _).trans (by gcongr; exact norm_mul_le _ _)
        · exact (norm_mul_le _ _).trans (by gcongr; exact norm_mul_le _ _)
    _ ≤ ‖x‖ ^ 2 / 2 * Real.exp ‖x‖ * ‖O‖ * 1 + (‖O‖ * (‖x‖ ^ 2 / 2 * Real.exp ‖x‖) +
          ‖x‖ * ‖O‖ * (‖x‖ * Real.exp ‖x‖)) := by gcongr
    _ = _ := by ring

/-- Choosing generators at random instead of their mean costs an error of second order. -/
theorem norm_meanPull_exp_sub_le (hd : 0 < d) {p : Fin k → ℝ} (hp : ∀ i, 0 ≤ p i) (hs : ∑ i, p i = 1)
    {x : Fin k → Matrix (Fin d) (Fin d) ℂ} (hx : ∀ i, (x i)ᴴ = -x i)
    (hu : ∀ i, NormedSpace.exp (x i) ∈ unitaryGroup (Fin d) ℂ)
    (hV : NormedSpace.exp (∑ i, p i • x i) ∈ unitaryGroup (Fin d) ℂ) {r : ℝ} (hr : ∀ i, ‖x i‖ ≤ r)
    (O : Matrix (Fin d) (Fin d) ℂ) :
    ‖meanPull p (fun i => NormedSpace.exp (x i)) O -
      (NormedSpace.exp (∑ i, p i • x i))ᴴ * O * NormedSpace.exp (∑ i, p i • x i)‖ ≤
      4 * r ^ 2 * Real.exp r * ‖O‖ := by
  set y := ∑ i, p i • x i with hy
  have hyct : yᴴ = -y := by
    rw [hy, conjTranspose_sum, ← Finset.sum_neg_distrib]
    refine Finset.sum_congr rfl fun i _ => ?_
    rw [conjTranspose_smul, hx i, star_trivial, smul_neg]
  have hyr : ‖y‖ ≤ r := by
    calc ‖y‖ ≤ ∑ i, ‖p i • x i‖ := norm_sum_le _ _
      _ ≤ ∑ i, p i * r := by
          gcongr with i
          rw [norm_smul, Real.norm_of_nonneg (hp i)]
          gcongr
          · exact hp i
          · exact hr i
      _ = r := by rw [← Finset.sum_mul, hs, one_mul]
  have hr0 : 0 ≤ r := (norm_nonneg y).trans hyr
  have h1 := norm_conj_sub_le hd hyct hV O
  have h2 : ‖meanPull p (fun i => NormedSpace.exp (x i)) O - O - (O * y - y * O)‖ ≤ 2 * r ^ 2 * Real.exp r * ‖O‖ := by
    have e : meanPull p (fun i => NormedSpace.exp (x i)) O - O - (O * y - y * O) =
        ∑ i, p i • ((NormedSpace.exp (x i))ᴴ * O * NormedSpace.exp (x i) - O - (O * x i - x i * O)) := by
      have e1 : O = ∑ i, p i • O := by rw [← Finset.sum_smul, hs, one_smul]
      have e2 : O * y - y * O = ∑ i, p i • (O * x i - x i * O) := by
        rw [hy, Finset.mul_sum, Finset.sum_mul, ← Finset.sum_sub_distrib]
        refine Finset.sum_congr rfl fun i _ => ?_
        rw [Matrix.mul_smul, Matrix.smul_mul, smul_sub]
      unfold meanPull
      rw [e2]
      conv_lhs => lhs; rhs; rw [e1]
      rw [← Finset.sum_sub_distrib, ← Finset.sum_sub_distrib]
      refine Finset.sum_congr rfl fun i _ => ?_
      simp only [smul_sub]
    rw [e]
    calc _ ≤ ∑ i, ‖p i • ((NormedSpace.exp (x i))ᴴ * O * NormedSpace.exp (x i) - O - (O * x i - x i * O))‖ :=
          norm_sum_le _ _
      _ ≤ ∑ i, p i * (2 * r ^ 2 * Real.exp r * ‖O‖) := by
          gcongr with i
          rw [norm_smul, Real.norm_of_nonneg (hp i)]
          refine mul_le_mul_of_nonneg_left ((norm_conj_sub_le hd (hx i) (hu i) O).trans ?_) (hp i)
          have := hr i
          gcongr
      _ = _ := by rw [← Finset.sum_mul, hs, one_mul]
  have h3 : 2 * ‖y‖ ^ 2 * Real.exp ‖y‖ * ‖O‖ ≤ 2 * r ^ 2 * Real.exp r * ‖O‖ := by gcongr
  calc _ = ‖(meanPull p (fun i => NormedSpace.exp (x i)) O - O - (O * y - y * O)) -
        ((NormedSpace.exp y)ᴴ * O * NormedSpace.exp y - O - (O * y - y * O))‖ := by congr 1; abel
    _ ≤ _ := norm_sub_le _ _
    _ ≤ 4 * r ^ 2 * Real.exp r * ‖O‖ := by linarith

end Generators

section Integral

local notation "I" => Set.Ico (0 : ℝ) 1

/-- The mean of a function of a randomly chosen index. -/
theorem integral_shot {E : Type} [NormedAddCommGroup E] [NormedSpace ℝ E] [CompleteSpace E] {p : Fin k → ℝ}
    {shot : I → Fin k} (hm : Measurable shot)
    (hp : ∀ a : Fin k → ℝ, ∫ u, a (shot u) ∂uniformUnit = ∑ i, p i * a i) (F : Fin k → E) :
    ∫ u, F (shot u) ∂uniformUnit = ∑ i, p i • F i := by
  have h1 : ∫ u, F (shot u) ∂uniformUnit = ∫ i, F i ∂(uniformUnit.map shot) :=
    (integral_map hm.aemeasurable (StronglyMeasurable.of_discrete).aestronglyMeasurable).symm
  have hprob : IsProbabilityMeasure (uniformUnit.map shot) := Measure.isProbabilityMeasure_map hm.aemeasurable
  rw [h1, integral_fintype (Integrable.of_finite)]
  refine Finset.sum_congr rfl fun i _ => ?_
  congr 1
  have h2 := hp (Pi.single i 1)
  rw [show ∑ j, p j * (Pi.single i 1 : Fin k → ℝ) j = p i by simp [Pi.single_apply]] at h2
  have h3 : ∫ u, (Pi.single i 1 : Fin k → ℝ) (shot u) ∂uniformUnit =
      ∫ j, (Pi.single i 1 : Fin k → ℝ) j ∂(uniformUnit.map shot) :=
    (integral_map hm.aemeasurable (StronglyMeasurable.of_discrete).aestronglyMeasurable).symm
  rw [h3, integral_fintype (Integrable.of_finite)] at h2
  simpa [Pi.single_apply] using h2

variable {U : Fin k → Matrix (Fin d) (Fin d) ℂ} {p : Fin k → ℝ} {shot : I → Fin k}

theorem stronglyMeasurable_pulled (hm : Measurable shot) (O : Matrix (Fin d) (Fin d) ℂ) (N : ℕ) :
    StronglyMeasurable fun ω : ℕ → I => pulled U O N fun j => shot (ω j) := by
  induction N with
  | zero => exact stronglyMeasurable_const
  | succ N ih =>
    have h1 : Measurable fun ω : ℕ → I => shot (ω 0) := hm.comp (measurable_pi_apply 0)
    have h2 : StronglyMeasurable fun ω : ℕ → I => U (shot (ω 0)) :=
      (StronglyMeasurable.of_discrete (f := U)).comp_measurable h1
    have h3 : StronglyMeasurable fun ω : ℕ → I => (U (shot (ω 0)))ᴴ :=
      (StronglyMeasurable.of_discrete (f := fun i => (U i)ᴴ)).comp_measurable h1
    have h4 : Measurable fun (ω : ℕ → I) (j : ℕ) => ω (1 + j) := by fun_prop
    exact (h3.mul (ih.comp_measurable h4)).mul h2

theorem measurePreserving_shift {X : Type} [MeasurableSpace X] (μ : Measure X) [IsProbabilityMeasure μ] (a : ℕ) :
    MeasurePreserving (fun (ω : ℕ → X) (i : ℕ) => ω (a + i)) (Measure.infinitePi fun _ => μ)
      (Measure.infinitePi fun _ => μ) := by
  induction a with
  | zero =>
    simp only [Nat.zero_add]
    exact MeasurePreserving.id (Measure.infinitePi fun _ : ℕ => μ)
  | succ a ih =>
    have h1 := (measurePreserving_snd (μ := μ) (ν := Measure.infinitePi fun _ : ℕ => μ)).comp
      (measurePreserving_uncons μ)
    have h2 := h1.comp ih
    have e : ((Prod.snd ∘ fun ω : ℕ → X => (ω 0, fun i => ω (1 + i))) ∘ fun (ω : ℕ → X) (i : ℕ) => ω (a + i)) =
        fun (ω : ℕ → X) (i : ℕ) => ω (a + 1 + i) := by
      funext ω i
      simp [add_assoc]
    rwa [e] at h2

/-- The mean of an observable pulled through `N` independently chosen gates. -/
theorem integral_pulled (hU : ∀ i, U i ∈ unitaryGroup (Fin d) ℂ) (hm : Measurable shot)
    (hp : ∀ a : Fin k → ℝ, ∫ u, a (shot u) ∂uniformUnit = ∑ i, p i * a i) (O : Matrix (Fin d) (Fin d) ℂ) (N a : ℕ) :
    Integrable (fun ω : ℕ → I => pulled U O N fun j => shot (ω (a + j))) uniformTape ∧
    ∫ ω : ℕ → I, pulled U O N (fun j => shot (ω (a + j))) ∂uniformTape = (meanPull p U)^[N] O := by
  have hint : ∀ N, Integrable (fun ω : ℕ → I => pulled U O N fun j => shot (ω j)) uniformTape := fun N =>
    Integrable.of_bound (stronglyMeasurable_pulled hm O N).aestronglyMeasurable ‖O‖
      (Filter.Eventually.of_forall fun ω => norm_pulled_le hU O N _)
  have hshift := measurePreserving_shift uniformUnit a
  have h0 : ∫ ω : ℕ → I, pulled U O N (fun j => shot (ω (a + j))) ∂uniformTape =
      ∫ ω : ℕ → I, pulled U O N (fun j => shot (ω j)) ∂uniformTape := by
    have := integral_map (μ := uniformTape) hshift.measurable.aemeasurable
      (f := fun ω : ℕ → I => pulled U O N fun j => shot (ω j))
      (stronglyMeasurable_pulled hm O N).aestronglyMeasurable
    rw [show uniformTape.map (fun (ω : ℕ → I) (i : ℕ) => ω (a + i)) = uniformTape from hshift.map_eq] at this
    exact this.symm
  refine ⟨hshift.integrable_comp_of_integrable (hint N), ?_⟩
  rw [h0]
  clear h0 hshift
  induction N with
  | zero => simp [pulled]
  | succ N ih =>
    rw [Function.iterate_succ_apply', ← ih]
    have hmp := measurePreserving_uncons uniformUnit
    set f : I × (ℕ → I) → Matrix (Fin d) (Fin d) ℂ := fun x =>
      (U (shot x.1))ᴴ * pulled U O N (fun j => shot (x.2 j)) * U (shot x.1) with hf
    have hfm : StronglyMeasurable f := by
      have h1 : Measurable fun x : I × (ℕ → I) => shot x.1 := hm.comp measurable_fst
      exact (((StronglyMeasurable.of_discrete (f := fun i => (U i)ᴴ)).comp_measurable h1).mul
        ((stronglyMeasurable_pulled hm O N).comp_measurable measurable_snd)).mul
        ((StronglyMeasurable.of_discrete (f := U)).comp_measurable h1)
    have hfi : Integrable f (uniformUnit.prod uniformTape) :=
      Integrable.of_bound hfm.aestronglyMeasurable ‖O‖ (Filter.Eventually.of_forall fun x =>
        (norm_conj_le hU (hU _) _).trans (norm_pulled_le hU O N _))
    have e1 : ∫ ω : ℕ → I, pulled U O (N + 1) (fun j => shot (ω j)) ∂uniformTape =
        ∫ x, f x ∂(uniformUnit.prod uniformTape) := by
      have := integral_map (μ := uniformTape) hmp.measurable.aemeasurable (f := f) (by
        rw [show uniformTape.map (fun ω : ℕ → I => (ω 0, fun i => ω (1 + i))) = uniformUnit.prod uniformTape from
          hmp.map_eq]
        exact hfm.aestronglyMeasurable)
      rw [show uniformTape.map (fun ω : ℕ → I => (ω 0, fun i => ω (1 + i))) = uniformUnit.prod uniformTape from
          hmp.map_eq] at this
      rw [this]
      rfl
    rw [e1, integral_prod f hfi]
    have e2 : ∀ u : I, ∫ ω, f (u, ω) ∂uniformTape = (fun i => (U i)ᴴ *
        (∫ ω : ℕ → I, pulled U O N (fun j => shot (ω j)) ∂uniformTape) * U i) (shot u) := by
      intro u
      have := ((ContinuousLinearMap.mulLeftRight ℝ (Matrix (Fin d) (Fin d) ℂ)) (U (shot u))ᴴ
        (U (shot u))).integral_comp_comm (hint N)
      exact this
    refine (integral_congr_ae (Filter.Eventually.of_forall e2)).trans ?_
    exact integral_shot hm hp fun i => (U i)ᴴ *
      (∫ ω : ℕ → I, pulled U O N (fun j => shot (ω j)) ∂uniformTape) * U i

end Integral

end Stoq
