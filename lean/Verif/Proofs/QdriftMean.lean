import Verif.Proofs.Qdrift
import Verif.Proofs.LawReach

/-! # The mean of a product of randomly chosen unitary matrices, and its overlap with a fixed one -/

namespace Stoq

open Matrix MeasureTheory
open scoped Matrix.Norms.L2Operator

variable {d k : ℕ}

local notation "I" => Set.Ico (0 : ℝ) 1

/-- The product of the gates with the indices `i 0, …, i (N - 1)`, the first one applied first. -/
noncomputable def drawnProduct (U : Fin k → Matrix (Fin d) (Fin d) ℂ) :
    ℕ → (ℕ → Fin k) → Matrix (Fin d) (Fin d) ℂ
  | 0, _ => 1
  | N + 1, i => drawnProduct U N (fun j => i (1 + j)) * U (i 0)

theorem drawnProduct_eq (U : Fin k → Matrix (Fin d) (Fin d) ℂ) (N : ℕ) (i : ℕ → Fin k) :
    drawnProduct U N i = ((List.range N).map fun j => U (i j)).reverse.prod := by
  induction N generalizing i with
  | zero => simp [drawnProduct]
  | succ N ih =>
    rw [drawnProduct, ih, List.range_succ_eq_map, List.map_cons, List.reverse_cons, List.prod_append, List.map_map]
    have : ((fun j => U (i j)) ∘ Nat.succ) = fun j => U (i (1 + j)) := by
      funext j; rw [Function.comp, Nat.succ_eq_add_one, add_comm]
    rw [this, List.prod_singleton]

variable {U : Fin k → Matrix (Fin d) (Fin d) ℂ} {p : Fin k → ℝ} {shot : I → Fin k}

theorem drawnProduct_mem (hU : ∀ i, U i ∈ unitaryGroup (Fin d) ℂ) (N : ℕ) (i : ℕ → Fin k) :
    drawnProduct U N i ∈ unitaryGroup (Fin d) ℂ := by
  induction N generalizing i with
  | zero => exact one_mem _
  | succ N ih => exact mul_mem (ih _) (hU _)

theorem stronglyMeasurable_drawnProduct (hm : Measurable shot) (N : ℕ) :
    StronglyMeasurable fun ω : ℕ → I => drawnProduct U N fun j => shot (ω j) := by
  induction N with
  | zero => exact stronglyMeasurable_const
  | succ N ih =>
    have h1 : Measurable fun ω : ℕ → I => shot (ω 0) := hm.comp (measurable_pi_apply 0)
    have h2 : StronglyMeasurable fun ω : ℕ → I => U (shot (ω 0)) :=
      (StronglyMeasurable.of_discrete (f := U)).comp_measurable h1
    have h4 : Measurable fun (ω : ℕ → I) (j : ℕ) => ω (1 + j) := by fun_prop
    exact (ih.comp_measurable h4).mul h2

/-- The mean of a product of independently chosen gates is a power of the mean of one of them. -/
theorem integral_drawnProduct (hU : ∀ i, U i ∈ unitaryGroup (Fin d) ℂ) (hm : Measurable shot)
    (hp : ∀ a : Fin k → ℝ, ∫ u, a (shot u) ∂uniformUnit = ∑ i, p i * a i) (N : ℕ) :
    Integrable (fun ω : ℕ → I => drawnProduct U N fun j => shot (ω j)) uniformTape ∧
    ∫ ω : ℕ → I, drawnProduct U N (fun j => shot (ω j)) ∂uniformTape = (∑ i, p i • U i) ^ N := by
  have hint : ∀ N, Integrable (fun ω : ℕ → I => drawnProduct U N fun j => shot (ω j)) uniformTape := fun N =>
    Integrable.of_bound (stronglyMeasurable_drawnProduct hm N).aestronglyMeasurable 1
      (Filter.Eventually.of_forall fun ω => norm_unitary_le (drawnProduct_mem hU N _))
  refine ⟨hint N, ?_⟩
  induction N with
  | zero => simp [drawnProduct]
  | succ N ih =>
    have hmp := measurePreserving_uncons uniformUnit
    set f : I × (ℕ → I) → Matrix (Fin d) (Fin d) ℂ := fun x =>
      drawnProduct U N (fun j => shot (x.2 j)) * U (shot x.1) with hf
    have hfm : StronglyMeasurable f := by
      have h1 : Measurable fun x : I × (ℕ → I) => shot x.1 := hm.comp measurable_fst
      exact ((stronglyMeasurable_drawnProduct hm N).comp_measurable measurable_snd).mul
        ((StronglyMeasurable.of_discrete (f := U)).comp_measurable h1)
    have hfi : Integrable f (uniformUnit.prod uniformTape) :=
      Integrable.of_bound hfm.aestronglyMeasurable 1 (Filter.Eventually.of_forall fun x =>
        norm_unitary_le (mul_mem (drawnProduct_mem hU N _) (hU _)))
    have e1 : ∫ ω : ℕ → I, drawnProduct U (N + 1) (fun j => shot (ω j)) ∂uniformTape =
        ∫ x, f x ∂(uniformUnit.prod uniformTape) := by
      have := integral_map (μ := uniformTape) hmp.measurable.aemeasurable (f := f) (by
        rw [show uniformTape.map (fun ω : ℕ → I => (ω 0, fun i => ω (1 + i))) = uniformUnit.prod uniformTape from
          hmp.map_eq]
        exact hfm.aestronglyMeasurable)
      rw [show uniformTape.map (fun ω : ℕ → I => (ω 0, fun i => ω (1 + i))) = uniformUnit.prod uniformTape from
          hmp.map_eq] at this
      rw [this]
      rfl
    rw [e1, integral_prod f hfi]
    have e2 : ∀ u : I, ∫ ω, f (u, ω) ∂uniformTape = (fun i =>
        (∫ ω : ℕ → I, drawnProduct U N (fun j => shot (ω j)) ∂uniformTape) * U i) (shot u) := by
      intro u
      exact ((ContinuousLinearMap.mul ℝ (Matrix (Fin d) (Fin d) ℂ)).flip (U (shot u))).integral_comp_comm (hint N)
    refine (integral_congr_ae (Filter.Eventually.of_forall e2)).trans ?_
    rw [integral_shot hm hp fun i => (∫ ω : ℕ → I, drawnProduct U N (fun j => shot (ω j)) ∂uniformTape) * U i, ih, pow_succ,
      Finset.mul_sum]
    refine Finset.sum_congr rfl fun i _ => ?_
    rw [mul_smul_comm]

/-- The mean overlap with a fixed unitary matrix is at least that of the mean. -/
theorem mean_overlap_ge (hd : 0 < d) (hU : ∀ i, U i ∈ unitaryGroup (Fin d) ℂ) (hm : Measurable shot)
    (hp : ∀ a : Fin k → ℝ, ∫ u, a (shot u) ∂uniformUnit = ∑ i, p i * a i) (N : ℕ) {T : Matrix (Fin d) (Fin d) ℂ}
    (hT : T ∈ unitaryGroup (Fin d) ℂ) :
    Measurable (fun ω : ℕ → I => overlap T (drawnProduct U N fun j => shot (ω j))) ∧
    Integrable (fun ω : ℕ → I => overlap T (drawnProduct U N fun j => shot (ω j))) uniformTape ∧
    1 - ‖(∑ i, p i • U i) ^ N - T‖ ≤ ∫ ω : ℕ → I, overlap T (drawnProduct U N fun j => shot (ω j)) ∂uniformTape := by
  obtain ⟨h1, h2⟩ := integral_drawnProduct hU hm hp N
  let ℓ : Matrix (Fin d) (Fin d) ℂ →ₗ[ℂ] ℂ :=
    { toFun := fun A => (Tᴴ * A).trace
      map_add' := fun A B => by rw [Matrix.mul_add, Matrix.trace_add]
      map_smul' := fun a A => by rw [Matrix.mul_smul, Matrix.trace_smul]; rfl }
  let Λ : Matrix (Fin d) (Fin d) ℂ →L[ℂ] ℂ := LinearMap.toContinuousLinearMap ℓ
  have hΛ : ∀ A, overlap T A = ‖Λ A‖ / d := fun A => rfl
  have hmeas : StronglyMeasurable (fun ω : ℕ → I => overlap T (drawnProduct U N fun j => shot (ω j))) := by
    simp only [hΛ, div_eq_mul_inv]
    exact ((Λ.continuous.comp_stronglyMeasurable (stronglyMeasurable_drawnProduct hm N)).norm).mul_const _
  have hint : Integrable (fun ω : ℕ → I => overlap T (drawnProduct U N fun j => shot (ω j))) uniformTape :=
    Integrable.of_bound hmeas.aestronglyMeasurable 1 (Filter.Eventually.of_forall fun ω => by
      rw [Real.norm_of_nonneg (overlap_nonneg _ _)]
      exact overlap_le_one hT (drawnProduct_mem hU N _))
  refine ⟨hmeas.measurable, hint, ?_⟩
  have h3 := overlap_sub_le hd (T := T) (A := (∑ i, p i • U i) ^ N) (B := T) hT
  rw [overlap_self hd hT] at h3
  have h4 : overlap T ((∑ i, p i • U i) ^ N) ≤ ∫ ω : ℕ → I, overlap T (drawnProduct U N fun j => shot (ω j)) ∂uniformTape := by
    rw [← h2, hΛ, ← Λ.integral_comp_comm h1]
    simp only [hΛ, integral_div]
    gcongr
    exact norm_integral_le_integral_norm _
  linarith

/-- The mean of exponentials and the exponential of the mean. -/
theorem norm_mean_exp_sub_le {x : Fin k → Matrix (Fin d) (Fin d) ℂ} (hp : ∀ i, 0 ≤ p i) (hs : ∑ i, p i = 1)
    {r : ℝ} (hr : ∀ i, ‖x i‖ ≤ r) :
    ‖∑ i, p i • NormedSpace.exp (x i) - NormedSpace.exp (∑ i, p i • x i)‖ ≤ r ^ 2 * Real.exp r := by
  have hne : ∃ i : Fin k, True := by
    by_contra h
    push Not at h
    rw [Finset.sum_eq_zero (fun i _ => (h i).elim)] at hs
    norm_num at hs
  obtain ⟨i0, -⟩ := hne
  have hr0 : 0 ≤ r := (norm_nonneg _).trans (hr i0)
  have hone : ∀ y : Matrix (Fin d) (Fin d) ℂ, ‖y‖ ≤ r → ‖NormedSpace.exp y - 1 - y‖ ≤ r ^ 2 / 2 * Real.exp r := by
    intro y hy
    refine (norm_exp_sub_le y).trans ((exp_sub_le_half (norm_nonneg y)).trans ?_)
    gcongr
  have hy : ‖∑ i, p i • x i‖ ≤ r := by
    calc ‖∑ i, p i • x i‖ ≤ ∑ i, ‖p i • x i‖ := norm_sum_le _ _
      _ ≤ ∑ i, p i * r := Finset.sum_le_sum fun i _ => by
          rw [norm_smul, Real.norm_of_nonneg (hp i)]
          exact mul_le_mul_of_nonneg_left (hr i) (hp i)
      _ = r := by rw [← Finset.sum_mul, hs, one_mul]
  have h1 : ‖∑ i, p i • (NormedSpace.exp (x i) - 1 - x i)‖ ≤ r ^ 2 / 2 * Real.exp r := by
    calc _ ≤ ∑ i, ‖p i • (NormedSpace.exp (x i) - 1 - x i)‖ := norm_sum_le _ _
      _ ≤ ∑ i, p i * (r ^ 2 / 2 * Real.exp r) := Finset.sum_le_sum fun i _ => by
          rw [norm_smul, Real.norm_of_nonneg (hp i)]
          exact mul_le_mul_of_nonneg_left (hone _ (hr i)) (hp i)
      _ = _ := by rw [← Finset.sum_mul, hs, one_mul]
  have e : ∑ i, p i • (NormedSpace.exp (x i) - 1 - x i) = ∑ i, p i • NormedSpace.exp (x i) - 1 - ∑ i, p i • x i := by
    simp only [smul_sub, Finset.sum_sub_distrib]
    rw [← Finset.sum_smul, hs, one_smul]
  rw [e] at h1
  calc _ = ‖(∑ i, p i • NormedSpace.exp (x i) - 1 - ∑ i, p i • x i) -
        (NormedSpace.exp (∑ i, p i • x i) - 1 - ∑ i, p i • x i)‖ := by congr 1; abel
    _ ≤ _ := norm_sub_le _ _
    _ ≤ r ^ 2 / 2 * Real.exp r + r ^ 2 / 2 * Real.exp r := add_le_add h1 (hone _ hy)
    _ = _ := by ring

theorem norm_exp_sub_two_le (x : Matrix (Fin d) (Fin d) ℂ) :
    ‖NormedSpace.exp x - 1 - x - (1 / 2 : ℝ) • x ^ 2‖ ≤ ‖x‖ ^ 3 / 6 * Real.exp ‖x‖ := by
  have h1 := NormedSpace.exp_series_hasSum_exp' (𝕂 := ℝ) x
  have h2 := NormedSpace.exp_series_hasSum_exp' (𝕂 := ℝ) ‖x‖
  rw [← hasSum_nat_add_iff' 3] at h1
  simp only [Finset.sum_range_succ, Finset.range_zero, Finset.sum_empty] at h1
  have e1 : NormedSpace.exp x - 1 - x - (1 / 2 : ℝ) • x ^ 2 = ∑' n : ℕ, (((n + 3).factorial : ℝ)⁻¹ • x ^ (n + 3)) := by
    rw [h1.tsum_eq]
    simp only [Nat.factorial, pow_zero, pow_one, zero_add, Nat.cast_one, inv_one, one_smul, mul_one,
      one_div]
    abel
  rw [e1, Real.exp_eq_exp_ℝ]
  refine tsum_of_norm_bounded (h2.mul_left (‖x‖ ^ 3 / 6)) fun n => ?_
  have hf : (6 : ℝ) * (n.factorial : ℝ) ≤ ((n + 3).factorial : ℝ) := by
    have : 6 * n.factorial ≤ (n + 3).factorial := by
      have := Nat.factorial_mul_factorial_dvd_factorial_add n 3
      have h3 := Nat.le_of_dvd (Nat.factorial_pos _) this
      rw [mul_comm]
      exact h3
    exact_mod_cast this
  have hp : (0 : ℝ) < n.factorial := by exact_mod_cast Nat.factorial_pos n
  rw [norm_smul, norm_inv, Real.norm_natCast, smul_eq_mul]
  calc ((n + 3).factorial : ℝ)⁻¹ * ‖x ^ (n + 3)‖ ≤ (6 * (n.factorial : ℝ))⁻¹ * ‖x‖ ^ (n + 3) := by
        gcongr
        exact norm_pow_le' x (by omega)
    _ = _ := by rw [pow_add]; field_simp

/-- The mean of exponentials and the exponential of the mean, to second order: their difference is half the variance. -/
theorem norm_mean_exp_sub_var_le {x : Fin k → Matrix (Fin d) (Fin d) ℂ} (hp : ∀ i, 0 ≤ p i) (hs : ∑ i, p i = 1)
    {r : ℝ} (hr : ∀ i, ‖x i‖ ≤ r) :
    ‖∑ i, p i • NormedSpace.exp (x i) - NormedSpace.exp (∑ i, p i • x i)‖ ≤
      ‖∑ i, p i • x i ^ 2 - (∑ i, p i • x i) ^ 2‖ / 2 + r ^ 3 / 3 * Real.exp r := by
  have hne : ∃ i : Fin k, True := by
    by_contra h
    push Not at h
    rw [Finset.sum_eq_zero (fun i _ => (h i).elim)] at hs
    norm_num at hs
  obtain ⟨i0, -⟩ := hne
  have hr0 : 0 ≤ r := (norm_nonneg _).trans (hr i0)
  have hone : ∀ y : Matrix (Fin d) (Fin d) ℂ, ‖y‖ ≤ r →
      ‖NormedSpace.exp y - 1 - y - (1 / 2 : ℝ) • y ^ 2‖ ≤ r ^ 3 / 6 * Real.exp r := by
    intro y hy
    refine (norm_exp_sub_two_le y).trans ?_
    gcongr
  have hy : ‖∑ i, p i • x i‖ ≤ r := by
    calc ‖∑ i, p i • x i‖ ≤ ∑ i, ‖p i • x i‖ := norm_sum_le _ _
      _ ≤ ∑ i, p i * r := Finset.sum_le_sum fun i _ => by
          rw [norm_smul, Real.norm_of_nonneg (hp i)]
          exact mul_le_mul_of_nonneg_left (hr i) (hp i)
      _ = r := by rw [← Finset.sum_mul, hs, one_mul]
  have h1 : ‖∑ i, p i • (NormedSpace.exp (x i) - 1 - x i - (1 / 2 : ℝ) • x i ^ 2)‖ ≤ r ^ 3 / 6 * Real.exp r := by
    calc _ ≤ ∑ i, ‖p i • (NormedSpace.exp (x i) - 1 - x i - (1 / 2 : ℝ) • x i ^ 2)‖ := norm_sum_le _ _
      _ ≤ ∑ i, p i * (r ^ 3 / 6 * Real.exp r) := Finset.sum_le_sum fun i _ => by
          rw [norm_smul, Real.norm_of_nonneg (hp i)]
          exact mul_le_mul_of_nonneg_left (hone _ (hr i)) (hp i)
      _ = _ := by rw [← Finset.sum_mul, hs, one_mul]
  have e : ∑ i, p i • (NormedSpace.exp (x i) - 1 - x i - (1 / 2 : ℝ) • x i ^ 2) =
      ∑ i, p i • NormedSpace.exp (x i) - 1 - ∑ i, p i • x i - (1 / 2 : ℝ) • ∑ i, p i • x i ^ 2 := by
    simp only [smul_sub, Finset.sum_sub_distrib]
    rw [← Finset.sum_smul, hs, one_smul, Finset.smul_sum]
    simp only [smul_comm (1 / 2 : ℝ)]
  rw [e] at h1
  set A := ∑ i, p i • NormedSpace.exp (x i)
  set y := ∑ i, p i • x i
  set Q := ∑ i, p i • x i ^ 2
  calc ‖A - NormedSpace.exp y‖ = ‖(A - 1 - y - (1 / 2 : ℝ) • Q) - (NormedSpace.exp y - 1 - y - (1 / 2 : ℝ) • y ^ 2) +
        (1 / 2 : ℝ) • (Q - y ^ 2)‖ := by congr 1; rw [smul_sub]; abel
    _ ≤ ‖A - 1 - y - (1 / 2 : ℝ) • Q‖ + ‖NormedSpace.exp y - 1 - y - (1 / 2 : ℝ) • y ^ 2‖ + ‖(1 / 2 : ℝ) • (Q - y ^ 2)‖ :=
        (norm_add_le _ _).trans (add_le_add (norm_sub_le _ _) le_rfl)
    _ ≤ r ^ 3 / 6 * Real.exp r + r ^ 3 / 6 * Real.exp r + 1 / 2 * ‖Q - y ^ 2‖ := by
        refine add_le_add (add_le_add h1 (hone _ hy)) (le_of_eq ?_)
        rw [norm_smul, Real.norm_of_nonneg (by norm_num)]
    _ = _ := by ring

theorem norm_pow_sub_pow_le {A B : Matrix (Fin d) (Fin d) ℂ} (hA : ‖A‖ ≤ 1) (hB : ‖B‖ ≤ 1) (N : ℕ) :
    ‖A ^ N - B ^ N‖ ≤ N * ‖A - B‖ := by
  have hAN : ∀ N : ℕ, ‖A ^ N‖ ≤ 1 := by
    intro N
    induction N with
    | zero =>
      rw [pow_zero]
      exact norm_unitary_le (one_mem _)
    | succ N ih =>
      rw [pow_succ]
      exact (norm_mul_le _ _).trans (mul_le_one₀ ih (norm_nonneg _) hA)
  induction N with
  | zero => simp
  | succ N ih =>
    have : A ^ (N + 1) - B ^ (N + 1) = A ^ N * (A - B) + (A ^ N - B ^ N) * B := by rw [pow_succ, pow_succ]; noncomm_ring
    rw [this]
    calc _ ≤ ‖A ^ N * (A - B)‖ + ‖(A ^ N - B ^ N) * B‖ := norm_add_le _ _
      _ ≤ ‖A ^ N‖ * ‖A - B‖ + ‖A ^ N - B ^ N‖ * ‖B‖ := add_le_add (norm_mul_le _ _) (norm_mul_le _ _)
      _ ≤ 1 * ‖A - B‖ + N * ‖A - B‖ * 1 := by
          gcongr
          exact hAN N
      _ = _ := by push_cast; ring

theorem norm_mean_le (hU : ∀ i, U i ∈ unitaryGroup (Fin d) ℂ) (hp : ∀ i, 0 ≤ p i) (hs : ∑ i, p i = 1) :
    ‖∑ i, p i • U i‖ ≤ 1 := by
  calc ‖∑ i, p i • U i‖ ≤ ∑ i, ‖p i • U i‖ := norm_sum_le _ _
    _ ≤ ∑ i, p i * 1 := Finset.sum_le_sum fun i _ => by
        rw [norm_smul, Real.norm_of_nonneg (hp i)]
        exact mul_le_mul_of_nonneg_left (norm_unitary_le (hU i)) (hp i)
    _ = 1 := by rw [← Finset.sum_mul, hs, one_mul]

end Stoq
