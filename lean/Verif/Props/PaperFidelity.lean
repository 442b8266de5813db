import Verif.Proofs.PaperFidelity

/-!
# Fidelity estimates of the paper

C65: what the RAV and XEB estimates measure.  C66: mean and variance of the simulated experiments with finitely many
shots, compared with the formulas `std_f_rav` and `std_f_xeb`.
-/

namespace Stoq

open MeasureTheory ProbabilityTheory

open Paper

/-! ## C65 -/

/-- C65: the ideal output probabilities are those of the column of the initial state, and they are a distribution. -/
theorem C65_ideal_probs {D : ℕ} {m : Arr} (h : m.toMatrix D ∈ Matrix.unitaryGroup (Fin D) ℂ)
    (start : Fin D) :
    (∀ x, idealOutputProbs m start x = ‖m.toMatrix D x start‖ ^ 2) ∧ IsDistribution (idealOutputProbs m start) :=
  ⟨idealOutputProbs_eq m start, isDistribution_ideal h start⟩

/-- C65: mixing with the completely mixed state gives a distribution, for every fraction between 0 and 1; a fraction
of 0 changes nothing, a fraction of 1 gives the uniform distribution. -/
theorem C65_output_probs {D : ℕ} {ideal : Fin D → ℝ} (h : IsDistribution ideal) :
    (∀ f, 0 ≤ f → f ≤ 1 → IsDistribution (outputProbs f ideal)) ∧ outputProbs 0 ideal = ideal ∧
      IsUniform (outputProbs 1 ideal) := by
  refine ⟨fun f h0 h1 => isDistribution_outputProbs h h0 h1, ?_, fun x => ?_⟩
  · funext x; unfold outputProbs; ring
  · unfold outputProbs; ring

/-- C65: the RAV success rate of a circuit whose output is mixed with the completely mixed state in the fraction `f`
is `1 - f`, whatever the ideal probability of the initial state, unless that is `1/D`. -/
theorem C65_rav {D : ℕ} {ideal : Fin D → ℝ} (x : Fin D) (hx : ideal x ≠ 1 / D) (f : ℝ) :
    successRate D (outputProbs f ideal x) (ideal x) = 1 - f := by
  have h0 : ideal x - 1 / D ≠ 0 := sub_ne_zero.mpr hx
  unfold successRate outputProbs
  rw [div_eq_iff h0]
  ring

/-- C65: so is the XEB fidelity, unless the ideal distribution is uniform. -/
theorem C65_xeb {D : ℕ} {ideal : Fin D → ℝ} (h : IsDistribution ideal) (hu : ¬ IsUniform ideal) (f : ℝ) :
    xebFidelity ideal (outputProbs f ideal) = 1 - f := by
  have h0 := mt (sum_sq_eq_iff h).mp hu
  rw [xebFidelity_eq h hu, expect_outputProbs h, div_eq_iff h0]
  ring

/-- C65: the XEB fidelity is the mean of the ideal probabilities over the measured distribution, on the scale on which
the uniform distribution has 0 and the ideal one 1. -/
theorem C65_xeb_scale {D : ℕ} {ideal : Fin D → ℝ} (h : IsDistribution ideal) (hu : ¬ IsUniform ideal) :
    (∀ q, xebFidelity ideal q = (expect q ideal - 1 / D) / (expect ideal ideal - 1 / D)) ∧
      0 < expect ideal ideal - 1 / D ∧ xebFidelity ideal ideal = 1 ∧
      ∀ q, IsUniform q → xebFidelity ideal q = 0 := by
  have h0 := mt (sum_sq_eq_iff h).mp hu
  have e : expect ideal ideal = ∑ x, ideal x ^ 2 := Finset.sum_congr rfl fun x _ => (sq _).symm
  have hq : ∀ q, xebFidelity ideal q = (expect q ideal - 1 / D) / (expect ideal ideal - 1 / D) := fun q => by
    rw [e]; exact xebFidelity_eq h hu q
  rw [← e] at h0
  refine ⟨hq, lt_of_le_of_ne ?_ (Ne.symm h0), ?_, fun q hq' => ?_⟩
  · rw [e, ← sum_sq_sub h]
    exact Finset.sum_nonneg fun x _ => sq_nonneg _
  · rw [hq, div_self h0]
  · have : expect q ideal = 1 / D := by
      unfold expect
      simp only [hq' _, ← Finset.mul_sum, h.2, mul_one]
    rw [hq, this, sub_self, zero_div]

/-- C65: the denominator of the XEB fidelity vanishes for the uniform distribution and for no other. -/
theorem C65_xeb_defined {D : ℕ} {ideal : Fin D → ℝ} (h : IsDistribution ideal) :
    ∑ x, ideal x ^ 2 - (∑ x, ideal x) / D = 0 ↔ IsUniform ideal := by
  rw [h.2]; exact sum_sq_eq_iff h

/-! ## C66 -/

/-- C66: with `K` shots, the RAV success rate is an unbiased estimate of `1 - f` whose standard deviation is exactly
`std_f_rav`. -/
theorem C66_rav {D K : ℕ} (hK : 0 < K) {ideal : Fin D → ℝ} (h : IsDistribution ideal) (x : Fin D)
    (hx : ideal x ≠ 1 / D) {f : ℝ} (h0 : 0 ≤ f) (h1 : f ≤ 1) :
    Rng.Estimates
      (do
        let measurements ← bernoulliShots (outputProbs f ideal x) K
        return successRate D (mean measurements) (ideal x))
      (1 - f) (stdFRav K D f (1 - ideal x) ^ 2) := by
  have hq := isDistribution_outputProbs h h0 h1
  have hD : (D : ℝ) ≠ 0 := Nat.cast_ne_zero.mpr (IsDistribution.pos h).ne'
  have hK' : (K : ℝ) ≠ 0 := Nat.cast_ne_zero.mpr hK.ne'
  have hd : ideal x - 1 / D ≠ 0 := sub_ne_zero.mpr hx
  have hd' : D * ideal x - 1 ≠ 0 := by
    intro h'
    apply hx
    field_simp
    linarith
  have key := estimates_bernoulli (hq.1 x) (IsDistribution.le_one hq x) hK
    (fun l => successRate D (mean l) (ideal x)) (1 / (ideal x - 1 / D)) (-(1 / D) / (ideal x - 1 / D)) fun l => by
      unfold successRate; ring
  have hnn : 0 ≤ (outputProbs f ideal x) * (1 - outputProbs f ideal x) :=
    mul_nonneg (hq.1 x) (by linarith [IsDistribution.le_one hq x])
  convert key using 1
  · unfold outputProbs
    rw [one_div_mul_eq_div, ← add_div, eq_div_iff hd]
    ring
  · have e : (1 / (K : ℝ)) * (D / (D * (1 - (1 - ideal x)) - 1)) ^ 2 * ((1 - f) * (1 - (1 - ideal x)) + f / D) *
        (1 - (1 - f) * (1 - (1 - ideal x)) - f / D) =
        (1 / (ideal x - 1 / D)) ^ 2 * (outputProbs f ideal x * (1 - outputProbs f ideal x) / K) := by
      have e1 : (D : ℝ) / (D * (1 - (1 - ideal x)) - 1) = 1 / (ideal x - 1 / D) := by
        rw [sub_sub_cancel, div_eq_div_iff hd' hd]
        field_simp
      rw [e1]
      unfold outputProbs
      ring
    unfold stdFRav
    rw [e, Real.sq_sqrt (mul_nonneg (sq_nonneg _) (div_nonneg hnn (Nat.cast_nonneg _)))]

/-- C66: the quantity simulated in the notebooks, `scaled_fidelity`, underestimates `1 - f` by the factor
`(D p - 1) / (D - 1)`, where `p` is the ideal probability of the initial state, and its standard deviation is
`std_f_rav` times the same factor. -/
theorem C66_rav_simulation {D K : ℕ} (hD : 1 < D) (hK : 0 < K) {m : Arr}
    (hm : m.toMatrix D ∈ Matrix.unitaryGroup (Fin D) ℂ) (start : Fin D)
    (hx : idealOutputProbs m start start ≠ 1 / D) {f : ℝ} (h0 : 0 ≤ f) (h1 : f ≤ 1) :
    Rng.Estimates (ravRepetition m start f K)
      ((1 - f) * ((D * idealOutputProbs m start start - 1) / (D - 1)))
      ((stdFRav K D f (1 - idealOutputProbs m start start) *
        ((D * idealOutputProbs m start start - 1) / (D - 1))) ^ 2) := by
  have h := isDistribution_ideal hm start
  have hq := isDistribution_outputProbs h h0 h1
  have hD0 : (D : ℝ) ≠ 0 := Nat.cast_ne_zero.mpr (IsDistribution.pos h).ne'
  have hD1 : (D : ℝ) - 1 ≠ 0 := by
    have : (1 : ℝ) < D := by exact_mod_cast hD
    linarith
  have hd' : D * idealOutputProbs m start start - 1 ≠ 0 := by
    intro h'
    apply hx
    field_simp
    linarith
  have hprog : ravRepetition m start f K =
      (bernoulliShots (outputProbs f (idealOutputProbs m start) start) K >>= fun l => pure (scaledFidelity D l)) := by
    unfold ravRepetition
    rw [assert_bind (isclose_one_of h.2)]
  have key := estimates_bernoulli (hq.1 start) (IsDistribution.le_one hq start) hK (fun l => scaledFidelity D l)
    (D / (D - 1)) (-(1 / D) * (D / (D - 1))) fun l => by unfold scaledFidelity; ring
  have hnn : 0 ≤ (outputProbs f (idealOutputProbs m start) start) * (1 - outputProbs f (idealOutputProbs m start) start) :=
    mul_nonneg (hq.1 start) (by linarith [IsDistribution.le_one hq start])
  rw [hprog]
  convert key using 1
  · unfold outputProbs
    field_simp
    ring
  · generalize idealOutputProbs m start = ideal at *
    have e : (1 / (K : ℝ)) * (D / (D * (1 - (1 - ideal start)) - 1)) ^ 2 *
        ((1 - f) * (1 - (1 - ideal start)) + f / D) * (1 - (1 - f) * (1 - (1 - ideal start)) - f / D) =
        (D / (D * ideal start - 1)) ^ 2 * (outputProbs f ideal start * (1 - outputProbs f ideal start) / K) := by
      rw [sub_sub_cancel]
      unfold outputProbs
      ring
    unfold stdFRav
    rw [mul_pow, e, Real.sq_sqrt (mul_nonneg (sq_nonneg _) (div_nonneg hnn (Nat.cast_nonneg _)))]
    field_simp

/-- C66: the simulated XEB fidelity is an unbiased estimate of `1 - f`; this is its variance. -/
theorem C66_xeb_simulation {D K : ℕ} (hK : 0 < K) {m : Arr}
    (hm : m.toMatrix D ∈ Matrix.unitaryGroup (Fin D) ℂ) (start : Fin D)
    (hu : ¬ IsUniform (idealOutputProbs m start)) {f : ℝ} (h0 : 0 ≤ f) (h1 : f ≤ 1) :
    Rng.Estimates (xebRepetition m start f K) (1 - f)
      (shotVariance (outputProbs f (idealOutputProbs m start)) (idealOutputProbs m start) /
        (K * (∑ x, idealOutputProbs m start x ^ 2 - 1 / D) ^ 2)) := by
  have h := isDistribution_ideal hm start
  have hq := isDistribution_outputProbs h h0 h1
  have hd := mt (sum_sq_eq_iff h).mp hu
  have hK' : (K : ℝ) ≠ 0 := Nat.cast_ne_zero.mpr hK.ne'
  obtain ⟨shot, hs1, hs2, hs3, hs4⟩ := choiceSize_shots hq
  have hle : ∀ u, |idealOutputProbs m start (shot u)| ≤ 1 := fun u => by
    rw [abs_of_nonneg (h.1 _)]; exact IsDistribution.le_one h _
  have key := Rng.Estimates.of_sum (m := xebRepetition m start f K)
    (g := fun u => idealOutputProbs m start (shot u)) ((Measurable.of_discrete (f := idealOutputProbs m start)).comp hs1)
    hle K K (1 / (K * (∑ x, idealOutputProbs m start x ^ 2 - 1 / D)))
    (-(1 / D) / (∑ x, idealOutputProbs m start x ^ 2 - 1 / D)) fun ω nat upos npos => by
      have e1 := measurementProbs_sum (fun k => shot (ω (upos + K + k))) hK
      have e2 := measurementProbs_expect (fun k => shot (ω (upos + K + k))) K (idealOutputProbs m start)
      unfold xebRepetition
      simp only []
      rw [assert_bind (isclose_one_of h.2), PyM.bind_of_ok (bernoulliShots_eq _ K ⟨ω, nat, upos, npos⟩), PyM.bind_of_ok (hs4 K _)]
      simp only []
      rw [assert_bind (isclose_one_of e1)]
      change Except.ok _ = _
      rw [xebFidelity_eq h hu, e2]
      refine congrArg Except.ok ?_
      field_simp
      ring
  rw [hs2, hs3] at key
  convert key using 1
  · rw [expect_outputProbs h]
    field_simp
    ring
  · unfold shotVariance
    field_simp

/-- C66: `std_f_xeb` treats the measured frequencies of different outcomes as independent.  They are not: its square
is at least the true variance, and it is larger unless one outcome is certain. -/
theorem C66_xeb_std {D K : ℕ} (hK : 0 < K) {ideal : Fin D → ℝ} (h : IsDistribution ideal)
    (hu : ¬ IsUniform ideal) {f : ℝ} (h0 : 0 ≤ f) (h1 : f ≤ 1) :
    let std := stdFXeb K D f (∑ x, ideal x ^ 2) (∑ x, ideal x ^ 3) (∑ x, ideal x ^ 4)
    let variance := shotVariance (outputProbs f ideal) ideal / (K * (∑ x, ideal x ^ 2 - 1 / D) ^ 2)
    variance ≤ std ^ 2 ∧ (variance = std ^ 2 ↔ ∃ x, ideal x = 1) := by
  have hq := isDistribution_outputProbs h h0 h1
  have hd := mt (sum_sq_eq_iff h).mp hu
  have hDpos : 0 < (D : ℝ) := Nat.cast_pos.mpr (IsDistribution.pos h)
  have hKpos : 0 < (K : ℝ) := Nat.cast_pos.mpr hK
  intro std variance
  set q := outputProbs f ideal with hqdef
  set r : Fin D → ℝ := fun x => ideal x * q x with hr
  have hr0 : ∀ x, 0 ≤ r x := fun x => mul_nonneg (h.1 x) (hq.1 x)
  have hden : 0 < (K : ℝ) * (∑ x, ideal x ^ 2 - 1 / D) ^ 2 := by positivity
  -- the formula of the notebook
  have hstd : std ^ 2 = (∑ x, ideal x ^ 2 * q x - ∑ x, r x ^ 2) / (K * (∑ x, ideal x ^ 2 - 1 / D) ^ 2) := by
    have e1 : ∑ x, ideal x ^ 2 * q x = (1 - f) * ∑ x, ideal x ^ 3 + f / D * ∑ x, ideal x ^ 2 := by
      rw [Finset.mul_sum, Finset.mul_sum, ← Finset.sum_add_distrib]
      refine Finset.sum_congr rfl fun x _ => ?_
      simp only [hqdef, outputProbs]; ring
    have e2 : ∑ x, r x ^ 2 = (1 - f) ^ 2 * ∑ x, ideal x ^ 4 + 2 * (1 - f) * (f / D) * ∑ x, ideal x ^ 3 +
        (f / D) ^ 2 * ∑ x, ideal x ^ 2 := by
      rw [Finset.mul_sum, Finset.mul_sum, Finset.mul_sum, ← Finset.sum_add_distrib, ← Finset.sum_add_distrib]
      refine Finset.sum_congr rfl fun x _ => ?_
      simp only [hr, hqdef, outputProbs]; ring
    have e3 : (∑ x, ideal x ^ 2 * q x - ∑ x, r x ^ 2) = ∑ x, ideal x ^ 2 * (q x * (1 - q x)) := by
      rw [← Finset.sum_sub_distrib]
      refine Finset.sum_congr rfl fun x _ => ?_
      simp only [hr]; ring
    have hnn : 0 ≤ (∑ x, ideal x ^ 2 * q x - ∑ x, r x ^ 2) / (K * (∑ x, ideal x ^ 2 - 1 / D) ^ 2) := by
      rw [e3]
      exact div_nonneg (Finset.sum_nonneg fun x _ => mul_nonneg (sq_nonneg _)
        (mul_nonneg (hq.1 x) (by linarith [IsDistribution.le_one hq x]))) hden.le
    have e4 : (1 / (K : ℝ)) * (D / ((∑ x, ideal x ^ 2) * D - 1)) ^ 2 *
        ((∑ x, ideal x ^ 2) * (f / D - (f / D) ^ 2) + (∑ x, ideal x ^ 3) * (1 - f) * (1 - 2 * f / D) -
          (∑ x, ideal x ^ 4) * (1 - f) ^ 2) =
        (∑ x, ideal x ^ 2 * q x - ∑ x, r x ^ 2) / (K * (∑ x, ideal x ^ 2 - 1 / D) ^ 2) := by
      have e5 : (D : ℝ) / ((∑ x, ideal x ^ 2) * D - 1) = 1 / (∑ x, ideal x ^ 2 - 1 / D) := by
        have : (∑ x, ideal x ^ 2) * D - 1 ≠ 0 := by
          intro h'
          apply hd
          field_simp
          linarith
        rw [div_eq_div_iff this hd]
        field_simp
      rw [e5, e1, e2]
      field_simp
      ring
    change stdFXeb K D f _ _ _ ^ 2 = _
    unfold stdFXeb
    rw [e4, Real.sq_sqrt hnn]
  have hvar : variance = (∑ x, ideal x ^ 2 * q x - (∑ x, r x) ^ 2) / (K * (∑ x, ideal x ^ 2 - 1 / D) ^ 2) := by
    have e1 : expect q (fun x => ideal x ^ 2) = ∑ x, ideal x ^ 2 * q x := Finset.sum_congr rfl fun x _ => mul_comm _ _
    have e2 : expect q ideal = ∑ x, r x := Finset.sum_congr rfl fun x _ => mul_comm _ _
    change shotVariance q ideal / _ = _
    unfold shotVariance
    rw [e1, e2]
  have hcross : (∑ x, r x) ^ 2 - ∑ x, r x ^ 2 = ∑ x, r x * (∑ y, r y - r x) := by
    rw [sq, Finset.sum_mul, ← Finset.sum_sub_distrib]
    exact Finset.sum_congr rfl fun x _ => by ring
  have hnn : ∀ x, 0 ≤ r x * (∑ y, r y - r x) := fun x =>
    mul_nonneg (hr0 x) (sub_nonneg.mpr (Finset.single_le_sum (fun y _ => hr0 y) (Finset.mem_univ x)))
  have hnn' : 0 ≤ (∑ x, r x) ^ 2 - ∑ x, r x ^ 2 := hcross ▸ Finset.sum_nonneg fun x _ => hnn x
  rw [hstd, hvar]
  refine ⟨by gcongr; linarith, ?_⟩
  rw [div_left_inj' hden.ne']
  -- outcomes with an ideal probability above 0 are measured with a probability above 0
  have hrpos : ∀ x, 0 < ideal x → 0 < r x := by
    intro x hx
    refine mul_pos hx ?_
    simp only [hqdef, outputProbs]
    rcases h1.lt_or_eq with h1' | h1'
    · have := mul_pos (sub_pos.mpr h1') hx
      positivity
    · rw [h1', sub_self, zero_mul, zero_add, one_mul]; positivity
  constructor
  · intro he
    have hz : ∑ x, r x * (∑ y, r y - r x) = 0 := by rw [← hcross]; linarith
    rw [Finset.sum_eq_zero_iff_of_nonneg fun x _ => hnn x] at hz
    obtain ⟨x, hx⟩ : ∃ x, 0 < ideal x := by
      by_contra hc
      push Not at hc
      have : ∑ x, ideal x ≤ 0 := Finset.sum_nonpos fun x _ => hc x
      rw [h.2] at this
      linarith
    refine ⟨x, ?_⟩
    have hxr := (mul_eq_zero.mp (hz x (Finset.mem_univ x))).resolve_left (hrpos x hx).ne'
    have hrest : ∑ y ∈ Finset.univ.erase x, r y = 0 := by
      have := Finset.add_sum_erase Finset.univ r (Finset.mem_univ x)
      linarith
    rw [Finset.sum_eq_zero_iff_of_nonneg fun y _ => hr0 y] at hrest
    rw [← h.2, Finset.sum_eq_single x]
    · intro y _ hy
      by_contra hne
      exact (hrpos y (lt_of_le_of_ne (h.1 y) (Ne.symm hne))).ne' (hrest y (Finset.mem_erase.mpr ⟨hy, Finset.mem_univ y⟩))
    · simp
  · rintro ⟨x, hx⟩
    have hzero : ∀ y, y ≠ x → ideal y = 0 := by
      intro y hy
      have e := Finset.add_sum_erase Finset.univ ideal (Finset.mem_univ x)
      rw [h.2, hx] at e
      have : ∑ y ∈ Finset.univ.erase x, ideal y = 0 := by linarith
      rw [Finset.sum_eq_zero_iff_of_nonneg fun y _ => h.1 y] at this
      exact this y (Finset.mem_erase.mpr ⟨hy, Finset.mem_univ y⟩)
    have hrz : ∀ y, y ≠ x → r y = 0 := fun y hy => by simp only [hr, hzero y hy, zero_mul]
    have e1 : ∑ y, r y = r x := Finset.sum_eq_single x (fun y _ hy => hrz y hy) (by simp)
    have e2 : ∑ y, r y ^ 2 = r x ^ 2 :=
      Finset.sum_eq_single x (fun y _ hy => by rw [hrz y hy, sq, zero_mul]) (by simp)
    rw [e1, e2]

/-! ## Cases that meet the hypotheses -/

/-- A rotation of one qubit that leaves the second basis state with the probability 3/4. -/
noncomputable def sixthTurn : Arr :=
  Arr.ofRows [[((√3 / 2 : ℝ) : ℂ), ((1 / 2 : ℝ) : ℂ)], [((-(1 / 2) : ℝ) : ℂ), ((√3 / 2 : ℝ) : ℂ)]]

theorem sixthTurn_unitary : sixthTurn.toMatrix 2 ∈ Matrix.unitaryGroup (Fin 2) ℂ := by
  have h3 : ((√3 : ℝ) : ℂ) * ((√3 : ℝ) : ℂ) = 3 := by
    rw [← Complex.ofReal_mul, Real.mul_self_sqrt (by norm_num)]
    norm_num
  have h2 : (starRingEnd ℂ) 2 = 2 := Complex.conj_ofNat 2
  rw [Matrix.mem_unitaryGroup_iff']
  ext i j
  fin_cases i <;> fin_cases j <;>
    simp [sixthTurn, Arr.toMatrix, Arr.ofRows, Matrix.mul_apply, Fin.sum_univ_two, Matrix.star_apply, h2] <;>
    first | linear_combination (0 : ℂ) * h3 | linear_combination (1 / 4 : ℂ) * h3

theorem sixthTurn_probs : idealOutputProbs sixthTurn (1 : Fin 2) 0 = 1 / 4 ∧
    idealOutputProbs sixthTurn (1 : Fin 2) 1 = 3 / 4 := by
  have h3 : √3 ^ 2 = 3 := Real.sq_sqrt (by norm_num)
  constructor <;> rw [idealOutputProbs_eq] <;>
    simp [sixthTurn, Arr.toMatrix, Arr.ofRows, div_pow, h3] <;> norm_num

theorem sixthTurn_not_uniform : ¬ IsUniform (idealOutputProbs sixthTurn (1 : Fin 2)) := by
  intro h
  have := h 0
  rw [sixthTurn_probs.1] at this
  norm_num at this

/-- C65: half of the output state is mixed. -/
example : successRate 2 (outputProbs (1 / 2) (idealOutputProbs sixthTurn (1 : Fin 2)) 1) (3 / 4) = 1 - 1 / 2 ∧
    xebFidelity (idealOutputProbs sixthTurn (1 : Fin 2))
      (outputProbs (1 / 2) (idealOutputProbs sixthTurn (1 : Fin 2))) = 1 - 1 / 2 := by
  refine ⟨?_, C65_xeb (C65_ideal_probs sixthTurn_unitary 1).2 sixthTurn_not_uniform _⟩
  have := C65_rav (ideal := idealOutputProbs sixthTurn (1 : Fin 2)) 1
    (by rw [sixthTurn_probs.2]; norm_num) (1 / 2)
  rwa [sixthTurn_probs.2] at this

/-- C66: a simulated RAV experiment with 100 shots sees half of the fidelity 1/2. -/
example : Rng.Estimates (ravRepetition sixthTurn (1 : Fin 2) (1 / 2) 100) (1 / 4)
    ((stdFRav 100 2 (1 / 2) (1 / 4) * (1 / 2)) ^ 2) := by
  have h := C66_rav_simulation (K := 100) one_lt_two (by norm_num) sixthTurn_unitary 1
    (by rw [sixthTurn_probs.2]; norm_num) (f := 1 / 2) (by norm_num) (by norm_num)
  rw [sixthTurn_probs.2] at h
  norm_num at h ⊢
  exact h

/-- C66: a simulated XEB experiment with 100 shots, whose standard deviation is below `std_f_xeb`. -/
example : ∃ v, Rng.Estimates (xebRepetition sixthTurn (1 : Fin 2) (1 / 2) 100) (1 - 1 / 2) v ∧
    v < stdFXeb 100 2 (1 / 2) (5 / 8) (7 / 16) (41 / 128) ^ 2 := by
  have hd := (C65_ideal_probs sixthTurn_unitary 1).2
  refine ⟨_, C66_xeb_simulation (by norm_num) sixthTurn_unitary 1 sixthTurn_not_uniform (by norm_num) (by norm_num), ?_⟩
  have h := C66_xeb_std (K := 100) (by norm_num) hd sixthTurn_not_uniform (f := 1 / 2) (by norm_num) (by norm_num)
  have e2 : ∑ x, idealOutputProbs sixthTurn (1 : Fin 2) x ^ 2 = 5 / 8 := by
    rw [Fin.sum_univ_two, sixthTurn_probs.1, sixthTurn_probs.2]; norm_num
  have e3 : ∑ x, idealOutputProbs sixthTurn (1 : Fin 2) x ^ 3 = 7 / 16 := by
    rw [Fin.sum_univ_two, sixthTurn_probs.1, sixthTurn_probs.2]; norm_num
  have e4 : ∑ x, idealOutputProbs sixthTurn (1 : Fin 2) x ^ 4 = 41 / 128 := by
    rw [Fin.sum_univ_two, sixthTurn_probs.1, sixthTurn_probs.2]; norm_num
  rw [e3, e4] at h
  obtain ⟨h1, h2⟩ := h
  simp only [e2] at h1 h2 ⊢
  refine lt_of_le_of_ne h1 fun he => ?_
  obtain ⟨x, hx⟩ := h2.mp he
  fin_cases x
  · have := hx.symm.trans sixthTurn_probs.1; norm_num at this
  · have := hx.symm.trans sixthTurn_probs.2; norm_num at this

end Stoq
