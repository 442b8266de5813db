import Verif.Proofs.Norm
import Verif.Proofs.Unitary
import Mathlib.LinearAlgebra.Matrix.Charpoly.Eigs
import Mathlib.LinearAlgebra.UnitaryGroup
import Mathlib.Analysis.Normed.Ring.Units

/-! # Operator norm and determinant of matrices close to unitary ones -/

namespace Stoq

open Matrix

open scoped Matrix.Norms.L2Operator

variable {d : ℕ}

theorem entry_le_norm (A : Matrix (Fin d) (Fin d) ℂ) (i j : Fin d) : ‖A i j‖ ≤ ‖A‖ := by
  have h := Matrix.l2_opNorm_mulVec A (EuclideanSpace.single j (1 : ℂ))
  have h0 : ‖EuclideanSpace.single j (1 : ℂ)‖ = 1 := by simp
  rw [h0, mul_one] at h
  refine le_trans ?_ h
  have h1 := PiLp.norm_apply_le (WithLp.toLp 2 (A *ᵥ (EuclideanSpace.single j (1 : ℂ)).ofLp)) i
  refine le_trans (le_of_eq ?_) h1
  simp

theorem norm_le_entries (A : Matrix (Fin d) (Fin d) ℂ) {B : ℝ} (hB : ∀ i j, ‖A i j‖ ≤ B) : ‖A‖ ≤ d * B := by
  rcases Nat.eq_zero_or_pos d with rfl | hd
  · have : A = 0 := by ext i; exact i.elim0
    simp [this]
  have hB0 : 0 ≤ B := le_trans (norm_nonneg _) (hB ⟨0, hd⟩ ⟨0, hd⟩)
  rw [Matrix.cstar_norm_def]
  refine ContinuousLinearMap.opNorm_le_bound _ (by positivity) fun x => ?_
  have hrow : ∀ i, ‖(A *ᵥ x.ofLp) i‖ ≤ √d * B * ‖x‖ := by
    intro i
    have h1 : ‖(A *ᵥ x.ofLp) i‖ ≤ ∑ j, B * ‖x j‖ := by
      show ‖∑ j, A i j * x.ofLp j‖ ≤ _
      refine (norm_sum_le _ _).trans (Finset.sum_le_sum fun j _ => ?_)
      rw [norm_mul]
      exact mul_le_mul_of_nonneg_right (hB i j) (norm_nonneg _)
    have h2 : ∑ j, ‖x j‖ ≤ √d * ‖x‖ := by
      have := Real.sum_mul_le_sqrt_mul_sqrt Finset.univ (fun _ : Fin d => (1 : ℝ)) (fun j => ‖x j‖)
      simpa [EuclideanSpace.norm_eq] using this
    rw [← Finset.mul_sum] at h1
    calc _ ≤ _ := h1
      _ ≤ B * (√d * ‖x‖) := mul_le_mul_of_nonneg_left h2 hB0
      _ = _ := by ring
  rw [EuclideanSpace.norm_eq]
  refine Real.sqrt_le_iff.mpr ⟨by positivity, ?_⟩
  calc ∑ i, ‖(toEuclideanCLM (n := Fin d) (𝕜 := ℂ) A x) i‖ ^ 2 ≤ ∑ _i : Fin d, (√d * B * ‖x‖) ^ 2 := by
        refine Finset.sum_le_sum fun i _ => ?_
        have := hrow i
        refine pow_le_pow_left₀ (norm_nonneg _) ?_ 2
        simpa [Matrix.ofLp_toEuclideanCLM] using this
    _ = (d * B * ‖x‖) ^ 2 := by
        rw [Finset.sum_const, Finset.card_univ, Fintype.card_fin, nsmul_eq_mul, mul_pow, mul_pow, Real.sq_sqrt (by positivity)]
        ring

theorem norm_unitary (hd : 0 < d) {V : Matrix (Fin d) (Fin d) ℂ} (hV : V ∈ unitaryGroup (Fin d) ℂ) : ‖V‖ = 1 := by
  have : Nonempty (Fin d) := ⟨⟨0, hd⟩⟩
  exact CStarRing.norm_of_mem_unitary hV

theorem norm_det_le (hd : 0 < d) (A : Matrix (Fin d) (Fin d) ℂ) : ‖A.det‖ ≤ ‖A‖ ^ d := by
  have : Nonempty (Fin d) := ⟨⟨0, hd⟩⟩
  rw [Matrix.det_eq_prod_roots_charpoly]
  have hcard : A.charpoly.roots.card ≤ d := by
    refine (Polynomial.card_roots' _).trans ?_
    rw [Matrix.charpoly_natDegree_eq_dim, Fintype.card_fin]
  have hcard' : A.charpoly.roots.card = d := by
    rw [← (IsAlgClosed.splits A.charpoly).natDegree_eq_card_roots, Matrix.charpoly_natDegree_eq_dim, Fintype.card_fin]
  have h : ∀ s : Multiset ℂ, (∀ z ∈ s, ‖z‖ ≤ ‖A‖) → ‖s.prod‖ ≤ ‖A‖ ^ s.card := by
    intro s
    induction s using Multiset.induction_on with
    | empty => simp
    | cons z s ih =>
      intro hs
      rw [Multiset.prod_cons, Multiset.card_cons, norm_mul, pow_succ, mul_comm]
      exact mul_le_mul (ih fun x hx => hs x (Multiset.mem_cons_of_mem hx)) (hs z (Multiset.mem_cons_self _ _))
        (norm_nonneg _) (by positivity)
  refine (h _ fun z hz => ?_).trans (by rw [hcard'])
  exact spectrum.norm_le_norm_of_mem (Matrix.mem_spectrum_of_isRoot_charpoly (Polynomial.isRoot_of_mem_roots hz))

/-- The inverse of a matrix within `ε < 1` of a unitary one. -/
theorem exists_inverse_near (hd : 0 < d) {X V : Matrix (Fin d) (Fin d) ℂ} (hV : V ∈ unitaryGroup (Fin d) ℂ) {ε : ℝ}
    (hX : ‖X - V‖ ≤ ε) (hε : ε < 1) : ∃ Y, X * Y = 1 ∧ Y * X = 1 ∧ ‖Y‖ ≤ 1 / (1 - ε) := by
  have : Nonempty (Fin d) := ⟨⟨0, hd⟩⟩
  have hVV : V * star V = 1 := mem_unitaryGroup_iff.mp hV
  have hVV' : star V * V = 1 := mem_unitaryGroup_iff'.mp hV
  have hsV : ‖star V‖ = 1 := by rw [norm_star]; exact norm_unitary hd hV
  set T := 1 - star V * X with hT
  have hTn : ‖T‖ ≤ ε := by
    have : T = star V * (V - X) := by rw [hT, mul_sub, hVV']
    rw [this]
    calc _ ≤ ‖star V‖ * ‖V - X‖ := norm_mul_le _ _
      _ = ‖X - V‖ := by rw [hsV, one_mul, norm_sub_rev]
      _ ≤ ε := hX
  have hu : IsUnit (star V * X) := by
    have := isUnit_one_sub_of_norm_lt_one (hTn.trans_lt hε)
    rwa [hT, sub_sub_cancel] at this
  obtain ⟨Z, h1, h2⟩ := isUnit_iff_exists.mp hu
  have hZ : ‖Z‖ ≤ 1 / (1 - ε) := by
    have e : Z = 1 + T * Z := by rw [hT, sub_mul, one_mul, h1]; abel
    have h3 : ‖Z‖ ≤ 1 + ε * ‖Z‖ := by
      calc ‖Z‖ = ‖1 + T * Z‖ := by rw [← e]
        _ ≤ ‖(1 : Matrix (Fin d) (Fin d) ℂ)‖ + ‖T * Z‖ := norm_add_le _ _
        _ ≤ 1 + ‖T‖ * ‖Z‖ := by rw [norm_one]; exact add_le_add le_rfl (norm_mul_le _ _)
        _ ≤ _ := by gcongr
    rw [le_div_iff₀ (by linarith)]
    linarith
  refine ⟨Z * star V, ?_, ?_, ?_⟩
  · have : star V * X * Z = 1 := h1
    have h4 : X * Z = V := by
      calc X * Z = V * star V * X * Z := by rw [hVV, one_mul]
        _ = V * (star V * X * Z) := by simp only [mul_assoc]
        _ = V := by rw [this, mul_one]
    rw [← mul_assoc, h4, hVV]
  · rw [mul_assoc]; exact h2
  · calc ‖Z * star V‖ ≤ ‖Z‖ * ‖star V‖ := norm_mul_le _ _
      _ ≤ _ := by rw [hsV, mul_one]; exact hZ

/-- Bounds on `|det (X + δ)|` relative to `|det X| = 1`. -/
theorem det_perturb (hd : 0 < d) {X V δ : Matrix (Fin d) (Fin d) ℂ} (hV : V ∈ unitaryGroup (Fin d) ℂ) {ε η : ℝ}
    (hX : ‖X - V‖ ≤ ε) (hdet : ‖X.det‖ = 1) (hδ : ‖δ‖ ≤ η) (hε : 0 ≤ ε) (hη : 0 ≤ η) (hsum : ε + η ≤ 1 / 100) :
    (1 - 1.011 * η) ^ d ≤ ‖(X + δ).det‖ ∧ ‖(X + δ).det‖ ≤ (1 + 1.011 * η) ^ d := by
  have : Nonempty (Fin d) := ⟨⟨0, hd⟩⟩
  obtain ⟨Y, hXY, hYX, hYn⟩ := exists_inverse_near hd hV hX (by linarith)
  have hYn' : ‖Y‖ ≤ 1.011 := by
    refine hYn.trans ?_
    rw [div_le_iff₀ (by linarith)]
    nlinarith
  have hfac : X + δ = X * (1 + Y * δ) := by rw [mul_add, mul_one, ← mul_assoc, hXY, one_mul]
  have ha : ‖Y * δ‖ ≤ 1.011 * η := (norm_mul_le _ _).trans (mul_le_mul hYn' hδ (norm_nonneg _) (by norm_num))
  have hdet' : ‖(X + δ).det‖ = ‖(1 + Y * δ).det‖ := by rw [hfac, det_mul, norm_mul, hdet, one_mul]
  rw [hdet']
  have ha1 : 1.011 * η < 1 := by linarith
  constructor
  · obtain ⟨Z, h1, -, hZ⟩ := exists_inverse_near (X := 1 + Y * δ) (V := 1) hd (one_mem _) (by simpa using ha) ha1
    have h2 : ‖(1 + Y * δ).det‖ * ‖Z.det‖ = 1 := by rw [← norm_mul, ← det_mul, h1, det_one, norm_one]
    have h3 : ‖Z.det‖ ≤ (1 / (1 - 1.011 * η)) ^ d :=
      (norm_det_le hd Z).trans (pow_le_pow_left₀ (norm_nonneg _) hZ d)
    have hp : 0 < (1 - 1.011 * η) ^ d := pow_pos (by linarith) d
    rw [one_div, inv_pow] at h3
    have h4 : 0 ≤ ‖(1 + Y * δ).det‖ := norm_nonneg _
    have h5 : 1 ≤ ‖(1 + Y * δ).det‖ * ((1 - 1.011 * η) ^ d)⁻¹ := by
      exact h2.symm.le.trans (mul_le_mul_of_nonneg_left h3 h4)
    rwa [← div_eq_mul_inv, le_div_iff₀ hp, one_mul] at h5
  · refine (norm_det_le hd _).trans (pow_le_pow_left₀ (norm_nonneg _) ?_ d)
    calc ‖1 + Y * δ‖ ≤ ‖(1 : Matrix (Fin d) (Fin d) ℂ)‖ + ‖Y * δ‖ := norm_add_le _ _
      _ ≤ _ := by rw [norm_one]; linarith

/-- A complex number close in absolute value to one is close to a phase. -/
theorem exists_phase (z : ℂ) : ∃ c : ℂ, ‖c‖ = 1 ∧ ‖z - c‖ = |‖z‖ - 1| := by
  by_cases hz : z = 0
  · exact ⟨1, by simp, by simp [hz]⟩
  have h0 : ‖z‖ ≠ 0 := norm_ne_zero_iff.mpr hz
  refine ⟨z / (‖z‖ : ℂ), by rw [norm_div]; simp [h0], ?_⟩
  have h0' : (‖z‖ : ℂ) ≠ 0 := by exact_mod_cast h0
  have : z - z / (‖z‖ : ℂ) = (((‖z‖ - 1 : ℝ) : ℂ)) * (z / (‖z‖ : ℂ)) := by
    push_cast; field_simp
  rw [this, norm_mul, norm_div, Complex.norm_real, Complex.norm_real, norm_norm, div_self h0, mul_one, Real.norm_eq_abs]

/-- Rescaling a perturbed matrix to determinant one. -/
theorem rescale_near (hd : 0 < d) {X V δ : Matrix (Fin d) (Fin d) ℂ} (hV : V ∈ unitaryGroup (Fin d) ℂ) {ε η : ℝ}
    (hX : ‖X - V‖ ≤ ε) (hdet : ‖X.det‖ = 1) (hδ : ‖δ‖ ≤ η) (hε : 0 ≤ ε) (hη : 0 ≤ η) (hsum : ε + η ≤ 1 / 100)
    {z : ℂ} (hz : z ^ d = 1 / (X + δ).det) :
    ∃ c : ℂ, ‖c‖ = 1 ∧ ‖z • (X + δ) - c • V‖ ≤ ε + 2.1 * η := by
  have : Nonempty (Fin d) := ⟨⟨0, hd⟩⟩
  obtain ⟨hlo, hhi⟩ := det_perturb hd hV hX hdet hδ hε hη hsum
  have hn : ‖z‖ ^ d = 1 / ‖(X + δ).det‖ := by rw [← norm_pow, hz, norm_div, norm_one]
  have hlow : 0 < 1 - 1.011 * η := by linarith
  have hpos : 0 < ‖(X + δ).det‖ := (pow_pos hlow d).trans_le hlo
  have hz1 : ‖z‖ ≤ 1 / (1 - 1.011 * η) := by
    refine le_of_pow_le_pow_left₀ hd.ne' (by positivity) ?_
    rw [hn, one_div, one_div, inv_pow]
    exact inv_anti₀ (pow_pos hlow d) hlo
  have hz2 : 1 / (1 + 1.011 * η) ≤ ‖z‖ := by
    refine le_of_pow_le_pow_left₀ hd.ne' (norm_nonneg _) ?_
    rw [hn, one_div, one_div, inv_pow]
    exact inv_anti₀ hpos hhi
  have habs : |‖z‖ - 1| ≤ 1.03 * η := by
    rw [abs_le]
    constructor
    · have : 1 - 1.03 * η ≤ 1 / (1 + 1.011 * η) := by
        rw [le_div_iff₀ (by positivity)]; nlinarith
      linarith
    · have : 1 / (1 - 1.011 * η) ≤ 1 + 1.03 * η := by
        rw [div_le_iff₀ hlow]; nlinarith
      linarith
  obtain ⟨c, hc, hzc⟩ := exists_phase z
  refine ⟨c, hc, ?_⟩
  have hXδ : ‖X + δ‖ ≤ 1.01 := by
    calc ‖X + δ‖ = ‖(X - V) + δ + V‖ := by congr 1; abel
      _ ≤ ‖X - V‖ + ‖δ‖ + ‖V‖ := (norm_add_le _ _).trans (add_le_add (norm_add_le _ _) le_rfl)
      _ ≤ ε + η + 1 := by rw [norm_unitary hd hV]; gcongr
      _ ≤ _ := by linarith
  have e : z • (X + δ) - c • V = (z - c) • (X + δ) + c • ((X - V) + δ) := by
    simp only [sub_smul, smul_add, smul_sub]; abel
  rw [e]
  calc _ ≤ ‖(z - c) • (X + δ)‖ + ‖c • ((X - V) + δ)‖ := norm_add_le _ _
    _ ≤ 1.03 * η * 1.01 + 1 * (ε + η) := by
      rw [norm_smul, norm_smul, hc, hzc]
      gcongr
      exact (norm_add_le _ _).trans (add_le_add hX hδ)
    _ ≤ _ := by nlinarith

/-- A perturbed unitary still passes an entrywise unitarity test. -/
theorem near_mul_ct (hd : 0 < d) {X V : Matrix (Fin d) (Fin d) ℂ} (hV : V ∈ unitaryGroup (Fin d) ℂ) {ε : ℝ}
    (hX : ‖X - V‖ ≤ ε) : ‖X * Xᴴ - 1‖ ≤ 2 * ε + ε ^ 2 := by
  have hVV : V * Vᴴ = 1 := mem_unitaryGroup_iff.mp hV
  have hε : 0 ≤ ε := (norm_nonneg _).trans hX
  have e : X * Xᴴ - 1 = (X - V) * Vᴴ + V * (X - V)ᴴ + (X - V) * (X - V)ᴴ := by
    rw [← hVV, conjTranspose_sub]
    noncomm_ring
  have hVn := norm_unitary hd hV
  rw [e]
  calc _ ≤ ‖(X - V) * Vᴴ‖ + ‖V * (X - V)ᴴ‖ + ‖(X - V) * (X - V)ᴴ‖ :=
        (norm_add_le _ _).trans (add_le_add (norm_add_le _ _) le_rfl)
    _ ≤ ε * 1 + 1 * ε + ε * ε := by
      gcongr
      · refine (norm_mul_le _ _).trans ?_
        rw [l2_opNorm_conjTranspose, hVn]; gcongr
      · refine (norm_mul_le _ _).trans ?_
        rw [l2_opNorm_conjTranspose, hVn]; gcongr
      · refine (norm_mul_le _ _).trans ?_
        rw [l2_opNorm_conjTranspose]; gcongr
    _ = _ := by ring

end Stoq
