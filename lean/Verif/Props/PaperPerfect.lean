import Verif.Props.PaperFidelity

/-!
# C107: the precision of RAV and XEB with finitely many shots
-/

namespace Stoq

open MeasureTheory ProbabilityTheory

open Paper

namespace Paper

/-- The square of the mean is at most the mean of the squares, with equality only for a single value. -/
theorem cube_sum {D : ℕ} {p : Fin D → ℝ} (h : IsDistribution p) :
    ∑ x, p x ^ 3 - (∑ x, p x ^ 2) ^ 2 = ∑ x, p x * (p x - ∑ y, p y ^ 2) ^ 2 := by
  have e : ∀ x, p x * (p x - ∑ y, p y ^ 2) ^ 2 = p x ^ 3 - 2 * (∑ y, p y ^ 2) * p x ^ 2 + (∑ y, p y ^ 2) ^ 2 * p x :=
    fun x => by ring
  simp only [e]
  rw [Finset.sum_add_distrib, Finset.sum_sub_distrib, ← Finset.mul_sum, ← Finset.mul_sum, h.2]
  ring

theorem sq_sum_le {D : ℕ} {p : Fin D → ℝ} (h : IsDistribution p) :
    ∑ x, p x ^ 2 ≤ 1 ∧ (∑ x, p x ^ 2 = 1 ↔ ∃ x, p x = 1) := by
  have e : 1 - ∑ x, p x ^ 2 = ∑ x, p x * (1 - p x) := by
    rw [← h.2, ← Finset.sum_sub_distrib]
    refine Finset.sum_congr rfl fun x _ => ?_
    rw [h.2]
    ring
  have hnn : ∀ x ∈ Finset.univ, 0 ≤ p x * (1 - p x) := fun x _ =>
    mul_nonneg (h.1 x) (sub_nonneg.mpr (IsDistribution.le_one h x))
  have h0 := Finset.sum_nonneg hnn
  refine ⟨by linarith, fun h1 => ?_, fun ⟨x, hx⟩ => ?_⟩
  · have hz : ∑ x, p x * (1 - p x) = 0 := by linarith
    rw [Finset.sum_eq_zero_iff_of_nonneg hnn] at hz
    by_contra hne
    push Not at hne
    have : ∀ x, p x = 0 := fun x =>
      (mul_eq_zero.mp (hz x (Finset.mem_univ x))).resolve_right fun h' => hne x (by linarith)
    have h2 := h.2
    simp [this] at h2
  · refine le_antisymm (by linarith) ?_
    calc (1 : ℝ) = p x ^ 2 := by rw [hx, one_pow]
      _ ≤ ∑ x, p x ^ 2 := Finset.single_le_sum (fun y _ => sq_nonneg (p y)) (Finset.mem_univ x)

/-- The variance of one shot, split into the part of the ideal output and the part of the uniform one. -/
theorem shotVariance_eq {D : ℕ} {p : Fin D → ℝ} (h : IsDistribution p) (f : ℝ) :
    shotVariance (outputProbs f p) p = (1 - f) * (∑ x, p x ^ 3 - (∑ x, p x ^ 2) ^ 2) +
      (1 - f) * f * (∑ x, p x ^ 2 - 1 / D) ^ 2 + f * (1 / D) * (∑ x, p x ^ 2 - 1 / D) := by
  have e1 : expect (outputProbs f p) (fun x => p x ^ 2) = (1 - f) * ∑ x, p x ^ 3 + f * (1 / D) * ∑ x, p x ^ 2 := by
    unfold expect outputProbs
    rw [Finset.mul_sum, Finset.mul_sum, ← Finset.sum_add_distrib]
    exact Finset.sum_congr rfl fun x _ => by ring
  have e2 : expect (outputProbs f p) p = (1 - f) * ∑ x, p x ^ 2 + f * (1 / D) := by
    unfold expect outputProbs
    have e : ∀ x, ((1 - f) * p x + f * (1 / (D : ℝ))) * p x = (1 - f) * p x ^ 2 + f * (1 / D) * p x := fun x => by ring
    simp only [e]
    rw [Finset.sum_add_distrib, ← Finset.mul_sum, ← Finset.mul_sum, h.2, mul_one]
  unfold shotVariance
  rw [e1, e2]
  ring

theorem stdFRav_perfect {K D f : ℝ} (hK : 0 < K) (hD : 1 < D) (h0 : 0 ≤ f) (h1 : f ≤ 1) :
    stdFRav K D f 0 ^ 2 = ((1 - f) * f + f * (1 / D) / (1 - 1 / D)) / K := by
  have hD0 : 0 < D := by linarith
  have hd : 0 < D - 1 := by linarith
  have e : (1 / K) * (D / (D * (1 - 0) - 1)) ^ 2 * ((1 - f) * (1 - 0) + f / D) * (1 - (1 - f) * (1 - 0) - f / D) =
      ((1 - f) * f + f * (1 / D) / (1 - 1 / D)) / K := by
    have : D * (1 - 0) - 1 ≠ 0 := by linarith
    have h2 : 1 - 1 / D ≠ 0 := by
      rw [one_sub_div hD0.ne']
      positivity
    field_simp
    ring
  have hv : 0 < 1 - 1 / D := by
    rw [one_sub_div hD0.ne']
    positivity
  have h1f : 0 ≤ 1 - f := by linarith
  unfold stdFRav
  rw [e, Real.sq_sqrt (by positivity)]

end Paper

/-- C107: the XEB estimate is never more precise than the RAV estimate of a circuit which returns with certainty, with the
same number of shots and the same noise: its variance is at least the square of `std_f_rav` with error 0, and if there is
noise it is equal only if the outcome of the XEB circuit is certain as well. -/
theorem C107_perfect {D K : ℕ} (hK : 0 < K) {ideal : Fin D → ℝ} (h : IsDistribution ideal)
    (hu : ¬ IsUniform ideal) {f : ℝ} (h0 : 0 ≤ f) (h1 : f ≤ 1) :
    let variance := shotVariance (outputProbs f ideal) ideal / (K * (∑ x, ideal x ^ 2 - 1 / D) ^ 2)
    stdFRav K D f 0 ^ 2 ≤ variance ∧ (0 < f → (stdFRav K D f 0 ^ 2 = variance ↔ ∃ x, ideal x = 1)) := by
  intro variance
  have hK' : (0 : ℝ) < K := Nat.cast_pos.mpr hK
  have hDpos := IsDistribution.pos h
  have hD : 1 < D := by
    rcases Nat.lt_or_ge 1 D with h' | h'
    · exact h'
    · exfalso
      obtain rfl : D = 1 := le_antisymm h' hDpos
      refine hu fun x => ?_
      have := h.2
      rw [Fin.sum_univ_one] at this
      rw [Subsingleton.elim x 0, this]
      norm_num
  have hD' : (1 : ℝ) < D := by exact_mod_cast hD
  have hv : 0 < 1 / (D : ℝ) := by positivity
  have hv1 : 1 / (D : ℝ) < 1 := by
    rw [div_lt_one (by linarith)]
    exact hD'
  have ha : 0 < ∑ x, ideal x ^ 2 - 1 / D := by
    have hne := mt (sum_sq_eq_iff h).mp hu
    have hge : 0 ≤ ∑ x, ideal x ^ 2 - 1 / D := by
      rw [← sum_sq_sub h]
      exact Finset.sum_nonneg fun x _ => sq_nonneg _
    exact lt_of_le_of_ne hge (Ne.symm hne)
  have hc : 0 ≤ ∑ x, ideal x ^ 3 - (∑ x, ideal x ^ 2) ^ 2 := by
    rw [cube_sum h]
    exact Finset.sum_nonneg fun x _ => mul_nonneg (h.1 x) (sq_nonneg _)
  obtain ⟨hs1, hs2⟩ := sq_sum_le h
  have hvar : variance = ((1 - f) * ((∑ x, ideal x ^ 3 - (∑ x, ideal x ^ 2) ^ 2) / (∑ x, ideal x ^ 2 - 1 / D) ^ 2) +
      (1 - f) * f + f * (1 / D) / (∑ x, ideal x ^ 2 - 1 / D)) / K := by
    change shotVariance (outputProbs f ideal) ideal / _ = _
    rw [shotVariance_eq h]
    generalize ∑ x, ideal x ^ 2 - 1 / (D : ℝ) = a at *
    field_simp
  have h1f : 0 ≤ 1 - f := by linarith
  have hfirst : 0 ≤ (1 - f) * ((∑ x, ideal x ^ 3 - (∑ x, ideal x ^ 2) ^ 2) / (∑ x, ideal x ^ 2 - 1 / D) ^ 2) :=
    mul_nonneg h1f (div_nonneg hc (sq_nonneg _))
  have hlast : f * (1 / D) / (1 - 1 / D) ≤ f * (1 / D) / (∑ x, ideal x ^ 2 - 1 / D) :=
    div_le_div_of_nonneg_left (by positivity) ha (by linarith)
  rw [hvar, stdFRav_perfect hK' hD' h0 h1]
  refine ⟨div_le_div_of_nonneg_right (by linarith) hK'.le, fun hf => ?_⟩
  rw [div_left_inj' hK'.ne']
  constructor
  · intro he
    have : f * (1 / D) / (1 - 1 / D) = f * (1 / D) / (∑ x, ideal x ^ 2 - 1 / D) := by linarith
    rw [div_eq_div_iff (by linarith) ha.ne'] at this
    have := mul_left_cancel₀ (mul_pos hf hv).ne' this
    exact hs2.mp (by linarith)
  · intro hx
    have hs := hs2.mpr hx
    have hc0 : ∑ x, ideal x ^ 3 - (∑ x, ideal x ^ 2) ^ 2 = 0 := by
      refine le_antisymm ?_ hc
      have : ∑ x, ideal x ^ 3 ≤ ∑ x, ideal x ^ 2 := Finset.sum_le_sum fun x _ =>
        pow_le_pow_of_le_one (h.1 x) (IsDistribution.le_one h x) (by norm_num)
      rw [hs] at this ⊢
      linarith
    rw [hc0, hs]
    ring

/-- C107: without noise a RAV circuit which returns with certainty is measured without any statistical error, but XEB only if all
outcomes that are possible are equally likely. -/
theorem C107_no_noise {D K : ℕ} (hK : 0 < K) {ideal : Fin D → ℝ} (h : IsDistribution ideal) (hu : ¬ IsUniform ideal) :
    (1 < D → stdFRav K D 0 0 = 0) ∧
    (shotVariance (outputProbs 0 ideal) ideal / (K * (∑ x, ideal x ^ 2 - 1 / D) ^ 2) = 0 ↔
      ∃ c, ∀ x, ideal x = 0 ∨ ideal x = c) := by
  have hK' : (0 : ℝ) < K := Nat.cast_pos.mpr hK
  have hne := mt (sum_sq_eq_iff h).mp hu
  refine ⟨fun hD => ?_, ?_⟩
  · have := stdFRav_perfect (K := K) (D := D) hK' (by exact_mod_cast hD) le_rfl zero_le_one
    simpa using this
  · have hden : (K : ℝ) * (∑ x, ideal x ^ 2 - 1 / D) ^ 2 ≠ 0 := mul_ne_zero hK'.ne' (pow_ne_zero 2 hne)
    rw [div_eq_zero_iff, or_iff_left hden, shotVariance_eq h]
    simp only [sub_zero, one_mul, zero_mul, mul_zero, add_zero]
    rw [cube_sum h, Finset.sum_eq_zero_iff_of_nonneg fun x _ => mul_nonneg (h.1 x) (sq_nonneg _)]
    constructor
    · intro hz
      refine ⟨∑ y, ideal y ^ 2, fun x => ?_⟩
      rcases mul_eq_zero.mp (hz x (Finset.mem_univ x)) with h' | h'
      · exact Or.inl h'
      · exact Or.inr (by have := pow_eq_zero_iff (two_ne_zero) |>.mp h'; linarith)
    · rintro ⟨c, hc⟩ x -
      rcases hc x with h' | h'
      · rw [h', zero_mul]
      · have : ∑ y, ideal y ^ 2 = c := by
          have e : ∀ y, ideal y ^ 2 = c * ideal y := fun y => by
            rcases hc y with h2 | h2 <;> rw [h2] <;> ring
          simp only [e]
          rw [← Finset.mul_sum, h.2, mul_one]
        rw [this, h', sub_self]
        ring

/-- C107: the two simulated experiments: with a RAV circuit that returns with certainty and any XEB circuit both have the mean `1 - f`,
and the variance of RAV is not larger. -/
theorem C107_simulation {D K : ℕ} (hD : 1 < D) (hK : 0 < K) {m m' : Arr}
    (hm : m.toMatrix D ∈ Matrix.unitaryGroup (Fin D) ℂ) (hm' : m'.toMatrix D ∈ Matrix.unitaryGroup (Fin D) ℂ)
    (start start' : Fin D) (hret : idealOutputProbs m start start = 1) (hu : ¬ IsUniform (idealOutputProbs m' start'))
    {f : ℝ} (h0 : 0 ≤ f) (h1 : f ≤ 1) :
    ∃ v v', Rng.Estimates (ravRepetition m start f K) (1 - f) v ∧
      Rng.Estimates (xebRepetition m' start' f K) (1 - f) v' ∧ v ≤ v' := by
  have hD' : (1 : ℝ) < D := by exact_mod_cast hD
  have hrav := C66_rav_simulation hD hK hm start (by
    rw [hret]
    intro h'
    rw [eq_div_iff (by linarith)] at h'
    linarith) h0 h1
  have hx := C66_xeb_simulation hK hm' start' hu h0 h1
  refine ⟨_, _, ?_, hx, (C107_perfect hK (isDistribution_ideal hm' start') hu h0 h1).1⟩
  rw [hret, mul_one, div_self (by linarith), mul_one, mul_one, sub_self] at hrav
  exact hrav

/-- C107: an estimate is far from its mean with a probability of at most its variance divided by the square of the distance. -/
theorem C107_deviation {m : PyM Rng ℝ} {mean variance δ : ℝ} (h : Rng.Estimates m mean variance) (hδ : 0 < δ)
    (nat : ℕ → ℕ) (upos npos : ℕ) :
    uniformTape {ω | ∃ x, (m ⟨ω, nat, upos, npos⟩).1 = .ok x ∧ δ ≤ |x - mean|} ≤ ENNReal.ofReal (variance / δ ^ 2) := by
  obtain ⟨X, hX, -, hL, hmean, hvar⟩ := h nat upos npos
  have := meas_ge_le_variance_div_sq hL hδ
  rw [hmean, hvar] at this
  refine le_trans (measure_mono ?_) this
  rintro ω ⟨x, hx, hd⟩
  rw [hX ω] at hx
  cases hx
  exact hd

/-- C107: so many shots are enough to know the fidelity from RAV within `δ`, except with probability `η`, whatever the noise. -/
theorem C107_shots {D K : ℕ} {ideal : Fin D → ℝ} (h : IsDistribution ideal) (x : Fin D) (hx : ideal x ≠ 1 / D) {f : ℝ}
    (h0 : 0 ≤ f) (h1 : f ≤ 1) {δ η : ℝ} (hδ : 0 < δ) (hη : 0 < η)
    (hK : 1 / (4 * δ ^ 2 * η * (ideal x - 1 / D) ^ 2) ≤ K) (nat : ℕ → ℕ) (upos npos : ℕ) :
    uniformTape {ω | ∃ y, ((do
        let measurements ← bernoulliShots (outputProbs f ideal x) K
        return successRate D (mean measurements) (ideal x) : PyM Rng ℝ) ⟨ω, nat, upos, npos⟩).1 = .ok y ∧
      δ ≤ |y - (1 - f)|} ≤ ENNReal.ofReal η := by
  have hd : 0 < (ideal x - 1 / D) ^ 2 := by
    have := sub_ne_zero.mpr hx
    positivity
  have hK0 : 0 < (K : ℝ) := lt_of_lt_of_le (by positivity) hK
  have hKn : 0 < K := Nat.cast_pos.mp hK0
  refine (C107_deviation (C66_rav hKn h x hx h0 h1) hδ nat upos npos).trans (ENNReal.ofReal_le_ofReal ?_)
  have hDpos : (0 : ℝ) < D := Nat.cast_pos.mpr (IsDistribution.pos h)
  have hq := isDistribution_outputProbs h h0 h1
  have hstd : stdFRav K D f (1 - ideal x) ^ 2 =
      outputProbs f ideal x * (1 - outputProbs f ideal x) / (K * (ideal x - 1 / D) ^ 2) := by
    have e : (1 / (K : ℝ)) * (D / (D * (1 - (1 - ideal x)) - 1)) ^ 2 *
        ((1 - f) * (1 - (1 - ideal x)) + f / D) * (1 - (1 - f) * (1 - (1 - ideal x)) - f / D) =
        outputProbs f ideal x * (1 - outputProbs f ideal x) / (K * (ideal x - 1 / D) ^ 2) := by
      have e1 : (D : ℝ) / (D * (1 - (1 - ideal x)) - 1) = (ideal x - 1 / D)⁻¹ := by
        have : (D : ℝ) * (1 - (1 - ideal x)) - 1 = D * (ideal x - 1 / D) := by
          field_simp
          ring
        rw [this, div_mul_eq_div_div, div_self hDpos.ne', one_div]
      rw [e1]
      unfold outputProbs
      rw [div_eq_mul_inv _ ((K : ℝ) * _), mul_inv, inv_pow]
      ring
    unfold stdFRav
    rw [e, Real.sq_sqrt (div_nonneg (mul_nonneg (hq.1 x) (by linarith [IsDistribution.le_one hq x])) (by positivity))]
  rw [hstd, div_div, div_le_iff₀ (by positivity)]
  have hquart : outputProbs f ideal x * (1 - outputProbs f ideal x) ≤ 1 / 4 := by
    nlinarith [sq_nonneg (outputProbs f ideal x - 1 / 2)]
  rw [div_le_iff₀ (by positivity)] at hK
  nlinarith

/-- C107: the circuit without gates returns with certainty, and `sixthTurn` is the XEB circuit. -/
example : ∃ v v', Rng.Estimates (ravRepetition (Arr.identity 2) (0 : Fin 2) (1 / 2) 100) (1 - 1 / 2) v ∧
    Rng.Estimates (xebRepetition sixthTurn (1 : Fin 2) (1 / 2) 100) (1 - 1 / 2) v' ∧ v ≤ v' := by
  have hI : (Arr.identity 2).toMatrix 2 = 1 := by
    ext i j
    fin_cases i <;> fin_cases j <;> simp [Arr.toMatrix, Arr.identity]
  refine C107_simulation one_lt_two (by norm_num) ?_ sixthTurn_unitary 0 1 ?_ sixthTurn_not_uniform (by norm_num) (by norm_num)
  · rw [hI]
    exact one_mem _
  · rw [idealOutputProbs_eq, hI]
    simp

/-- C107: a circuit that returns with probability 3/4 of two outcomes: 1600 shots are enough for an error of 1/10 except with probability 1/4. -/
example (nat : ℕ → ℕ) : uniformTape {ω | ∃ y, ((do
        let measurements ← bernoulliShots (outputProbs (1 / 2) (idealOutputProbs sixthTurn (1 : Fin 2)) 1) 1600
        return successRate 2 (mean measurements) (idealOutputProbs sixthTurn (1 : Fin 2) 1) : PyM Rng ℝ) ⟨ω, nat, 0, 0⟩).1 = .ok y ∧
      1 / 10 ≤ |y - (1 - 1 / 2)|} ≤ ENNReal.ofReal (1 / 4) :=
  C107_shots (C65_ideal_probs sixthTurn_unitary 1).2 1 (by rw [sixthTurn_probs.2]; norm_num) (by norm_num) (by norm_num)
    (by norm_num) (by norm_num) (by rw [sixthTurn_probs.2]; norm_num) nat 0 0

/-- C107: without noise XEB with `sixthTurn` has a statistical error. -/
example : shotVariance (outputProbs 0 (idealOutputProbs sixthTurn (1 : Fin 2))) (idealOutputProbs sixthTurn (1 : Fin 2)) /
    ((100 : ℕ) * (∑ x, idealOutputProbs sixthTurn (1 : Fin 2) x ^ 2 - 1 / (2 : ℕ)) ^ 2) ≠ 0 := by
  intro h
  obtain ⟨c, hc⟩ := (C107_no_noise (by norm_num) (C65_ideal_probs sixthTurn_unitary 1).2 sixthTurn_not_uniform).2.mp h
  have h0 := hc 0
  have h1 := hc 1
  rw [sixthTurn_probs.1] at h0
  rw [sixthTurn_probs.2] at h1
  norm_num at h0 h1
  linarith

end Stoq
