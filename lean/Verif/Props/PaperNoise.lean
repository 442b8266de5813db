import Verif.Proofs.PaperNoise
import Verif.Model.PaperFidelity

/-!
# Property C73: what the noisy emulator of the paper computes

The emulator returns matrices for Pauli coordinates.  The theorems say which maps of density matrices these are.
-/

namespace Stoq

namespace Noise

open Matrix Complex Paper
open scoped ComplexOrder

/-- The rotation that `gate_R` performs. -/
noncomputable def actualTurn (em : JaqalNoisyEmulator) (φ θ : ℝ) : Matrix (Fin 2) (Fin 2) ℂ :=
  turn (φ + 2 * Real.pi * em.rPhaseError) (θ + em.rRotationError * Real.sign θ)

/-- The rotation that `gate_MS` performs. -/
noncomputable def actualTurn2 (em : JaqalNoisyEmulator) (φ θ : ℝ) : Matrix (Fin 2 × Fin 2) (Fin 2 × Fin 2) ℂ :=
  turn2 (φ + 2 * Real.pi * em.msPhaseError) (θ + em.msRotationError * Real.sign θ)

theorem loss_bounds {p t : ℝ} (h0 : 0 ≤ p) (h1 : p ≤ 1) (ht : 0 ≤ t) : 0 ≤ (1 - p) ^ t ∧ (1 - p) ^ t ≤ 1 :=
  ⟨Real.rpow_nonneg (by linarith) _, Real.rpow_le_one (by linarith) (by linarith) ht⟩

theorem IsState.herm {κ : Type} [Fintype κ] {ρ : Matrix κ κ ℂ} (h : IsState ρ) : ρᴴ = ρ := h.1.1

end Noise

open Noise Paper Matrix Complex
open scoped ComplexOrder

/-- `gate_R`: the qubit loses its state with probability `1 - (1 - depolarization)^(|θ| / (π/2))`, and is then rotated
by the angle `θ` enlarged by the rotation error, about the axis turned by the phase error. -/
theorem C73_gate_R (em : JaqalNoisyEmulator) (φ θ : ℝ) {ρ : Matrix (Fin 2) (Fin 2) ℂ} (hρ : ρᴴ = ρ) :
    (em.gateR φ θ).mulVec (coords ρ) =
      coords (actualTurn em φ θ * mix ((1 - em.depolarization) ^ (|θ| / (Real.pi / 2))) ρ * (actualTurn em φ θ)ᴴ) := by
  unfold JaqalNoisyEmulator.gateR JaqalNoisyEmulator.gatedurationR
  rw [coords_fun, coords_fun, U_R_eq, ← mulVec_mulVec, ← coords_mix, basis1.gate _ (mix_hermitian hρ)]
  rfl

/-- `gate_MS`: each of the two qubits loses its state, with ten times the duration, before the rotation of both. -/
theorem C73_gate_MS (em : JaqalNoisyEmulator) (φ θ : ℝ) {ρ : Matrix (Fin 2 × Fin 2) (Fin 2 × Fin 2) ℂ}
    (hρ : ρᴴ = ρ) :
    let d := (1 - em.depolarization) ^ (10 * |θ| / (Real.pi / 2))
    (em.gateMS φ θ).mulVec (coords2 ρ) =
      coords2 (actualTurn2 em φ θ * mixSecond d (mixFirst d ρ) * (actualTurn2 em φ θ)ᴴ) := by
  intro d
  unfold JaqalNoisyEmulator.gateMS JaqalNoisyEmulator.gatedurationMS
  rw [coords2_fun, coords2_fun, U_MS_eq, ← mulVec_mulVec, ← coords_mix2,
    basis2.gate _ (mixSecond_hermitian (mixFirst_hermitian hρ))]
  rfl

/-- `gate_Rz`: an exact rotation about the z axis. -/
theorem C73_gate_Rz (θ : ℝ) {ρ : Matrix (Fin 2) (Fin 2) ℂ} (hρ : ρᴴ = ρ) :
    (JaqalNoisyEmulator.gateRz θ).mulVec (coords ρ) = coords (Gate.rot Gate.Z θ * ρ * (Gate.rot Gate.Z θ)ᴴ) := by
  unfold JaqalNoisyEmulator.gateRz
  rw [coords_fun, coords_fun, U_Rz_eq, basis1.gate _ hρ]

/-- `idle`: only the loss. -/
theorem C73_idle (em : JaqalNoisyEmulator) (t : ℝ) (ρ : Matrix (Fin 2) (Fin 2) ℂ) :
    (em.idle t).mulVec (coords ρ) = coords (mix ((1 - em.depolarization) ^ t) ρ) := by
  unfold JaqalNoisyEmulator.idle
  rw [coords_fun, coords_fun, coords_mix]

/-- Coordinates determine the operator, so the preceding theorems say everything about the matrices. -/
theorem C73_coordinates :
    (∀ ρ ρ' : Matrix (Fin 2) (Fin 2) ℂ, ρᴴ = ρ → ρ'ᴴ = ρ' → coords ρ = coords ρ' → ρ = ρ') ∧
    (∀ ρ ρ' : Matrix (Fin 2 × Fin 2) (Fin 2 × Fin 2) ℂ, ρᴴ = ρ → ρ'ᴴ = ρ' → coords2 ρ = coords2 ρ' → ρ = ρ') ∧
    (∀ A B : Matrix (Fin 4) (Fin 4) ℝ, (∀ ρ, ρᴴ = ρ → A.mulVec (coords ρ) = B.mulVec (coords ρ)) → A = B) ∧
    (∀ A B : Matrix (Fin 4 × Fin 4) (Fin 4 × Fin 4) ℝ,
      (∀ ρ, ρᴴ = ρ → A.mulVec (coords2 ρ) = B.mulVec (coords2 ρ)) → A = B) := by
  refine ⟨fun ρ ρ' h h' he => ?_, fun ρ ρ' h h' he => ?_, fun A B h => ?_, fun A B h => ?_⟩
  · rw [coords_fun, coords_fun] at he
    exact basis1.coords_inj h h' he
  · rw [coords2_fun, coords2_fun] at he
    exact basis2.coords_inj h h' he
  · exact basis1.ext fun ρ hρ => by simpa only [coords_fun] using h ρ hρ
  · exact basis2.ext fun ρ hρ => by simpa only [coords2_fun] using h ρ hρ

/-- With a depolarization between 0 and 1, all matrices map density matrices to density matrices. -/
theorem C73_states (em : JaqalNoisyEmulator) (h0 : 0 ≤ em.depolarization) (h1 : em.depolarization ≤ 1) (φ θ t : ℝ)
    (ht : 0 ≤ t) :
    (∀ ρ, IsState ρ → ∃ ρ', IsState ρ' ∧ (em.gateR φ θ).mulVec (coords ρ) = coords ρ') ∧
    (∀ ρ, IsState ρ → ∃ ρ', IsState ρ' ∧ (em.gateMS φ θ).mulVec (coords2 ρ) = coords2 ρ') ∧
    (∀ ρ, IsState ρ → ∃ ρ', IsState ρ' ∧ (JaqalNoisyEmulator.gateRz θ).mulVec (coords ρ) = coords ρ') ∧
    (∀ ρ, IsState ρ → ∃ ρ', IsState ρ' ∧ (em.idle t).mulVec (coords ρ) = coords ρ') := by
  have hpi := Real.pi_pos
  refine ⟨fun ρ h => ⟨_, ?_, C73_gate_R em φ θ h.herm⟩, fun ρ h => ⟨_, ?_, C73_gate_MS em φ θ h.herm⟩,
    fun ρ h => ⟨_, ?_, C73_gate_Rz θ h.herm⟩, fun ρ h => ⟨_, ?_, C73_idle em t ρ⟩⟩
  · obtain ⟨a, b⟩ := loss_bounds h0 h1 (t := |θ| / (Real.pi / 2)) (by positivity)
    exact conj_state (turn_unitary _ _) (mix_state a b h)
  · obtain ⟨a, b⟩ := loss_bounds h0 h1 (t := 10 * |θ| / (Real.pi / 2)) (by positivity)
    exact conj_state (turn2_unitary _ _) (mixSecond_state a b (mixFirst_state a b h))
  · exact conj_state (Gate.rot_unitary Gate.Z_sq Gate.Z_ct θ) h
  · obtain ⟨a, b⟩ := loss_bounds h0 h1 ht
    exact mix_state a b h

/-- The matrix of a step. -/
noncomputable def Noise.Step.noisy (em : JaqalNoisyEmulator) : Step → Matrix (Fin 4) (Fin 4) ℝ
  | .R φ θ => em.gateR φ θ
  | .Rz θ => JaqalNoisyEmulator.gateRz θ
  | .wait t => em.idle t

theorem Noise.inOrder_ideal_unitary (steps : List Step) : inOrder Step.ideal steps ∈ unitaryGroup (Fin 2) ℂ := by
  induction steps with
  | nil => exact one_mem _
  | cons s ss ih =>
    refine mul_mem ih ?_
    rcases s with ⟨φ, θ⟩ | θ | t
    · exact turn_unitary _ _
    · exact Gate.rot_unitary Gate.Z_sq Gate.Z_ct θ
    · exact one_mem _

/-- One-qubit circuits under depolarization alone: the loss over the total duration followed by the ideal circuit. -/
theorem C73_circuit (p : ℝ) (h1 : p ≤ 1) (steps : List Step) (hs : ∀ s ∈ steps, 0 ≤ s.duration)
    {ρ : Matrix (Fin 2) (Fin 2) ℂ} (hρ : ρᴴ = ρ) :
    (inOrder (Step.noisy { depolarization := p }) steps).mulVec (coords ρ) =
      coords (inOrder Step.ideal steps * mix ((1 - p) ^ (steps.map Step.duration).sum) ρ *
        (inOrder Step.ideal steps)ᴴ) := by
  have hpi := Real.pi_pos
  have hstep : ∀ s : Step, s.ideal ∈ unitaryGroup (Fin 2) ℂ ∧ Step.noisy { depolarization := p } s =
      diag1ddd ((1 - p) ^ s.duration) * unitaryToPauligate pauli s.ideal := by
    rintro (⟨φ, θ⟩ | θ | t)
    · refine ⟨turn_unitary _ _, ?_⟩
      change _ = diag1ddd _ * unitaryToPauligate pauli (turn φ θ)
      rw [diag1ddd_comm _ (turn_unitary _ _)]
      simp only [Step.noisy, JaqalNoisyEmulator.gateR, Step.duration, JaqalNoisyEmulator.gatedurationR,
        U_R_eq, mul_zero, add_zero, zero_mul]
      congr 3
      field_simp
    · refine ⟨Gate.rot_unitary Gate.Z_sq Gate.Z_ct θ, ?_⟩
      simp only [Step.noisy, Step.ideal, Step.duration, Real.rpow_zero, diag1ddd_one, Matrix.one_mul,
        JaqalNoisyEmulator.gateRz, U_Rz_eq]
    · refine ⟨one_mem _, ?_⟩
      simp only [Step.noisy, Step.ideal, Step.duration, basis1.gate_one, Matrix.mul_one, JaqalNoisyEmulator.idle]
  have hall : inOrder Step.ideal steps ∈ unitaryGroup (Fin 2) ℂ ∧ 0 ≤ (steps.map Step.duration).sum ∧
      inOrder (Step.noisy { depolarization := p }) steps =
        unitaryToPauligate pauli (inOrder Step.ideal steps) * diag1ddd ((1 - p) ^ (steps.map Step.duration).sum) := by
    induction steps with
    | nil => simp [inOrder, basis1.gate_one, diag1ddd_one]
    | cons s ss ih =>
      obtain ⟨i1, i2, i3⟩ := ih fun s hs' => hs s (by simp [hs'])
      have hd := hs s (by simp)
      obtain ⟨s1, s2⟩ := hstep s
      refine ⟨mul_mem i1 s1, by simpa using add_nonneg hd i2, ?_⟩
      simp only [inOrder, i3, s2, List.map_cons, List.sum_cons, basis1.gate_mul]
      rw [Real.rpow_add_of_nonneg (by linarith) hd i2, ← diag1ddd_mul]
      rw [diag1ddd_comm _ s1]
      simp only [Matrix.mul_assoc]
      congr 1
      rw [← Matrix.mul_assoc, diag1ddd_comm _ s1, Matrix.mul_assoc, diag1ddd_mul, diag1ddd_mul, mul_comm]
  rw [hall.2.2, coords_fun, coords_fun, ← mulVec_mulVec, ← coords_mix, basis1.gate _ (mix_hermitian hρ)]

/-- So the success rate that fig. 5 plots is, for one qubit, exactly exponential in the total duration. -/
theorem C73_success_rate (p : ℝ) (h1 : p ≤ 1) (steps : List Step) (hs : ∀ s ∈ steps, 0 ≤ s.duration) :
    let U := inOrder Step.ideal steps
    let ideal := ((U * ground * Uᴴ) 0 0).re
    ∃ ρ, (inOrder (Step.noisy { depolarization := p }) steps).mulVec (coords ground) = coords ρ ∧ ρᴴ = ρ ∧
      (ideal ≠ 1 / 2 → successRate 2 ((ρ 0 0).re) ideal = (1 - p) ^ (steps.map Step.duration).sum) := by
  intro U ideal
  have hg : groundᴴ = ground := by ext r c; fin_cases r <;> fin_cases c <;> simp [ground]
  have hU : U ∈ unitaryGroup (Fin 2) ℂ := inOrder_ideal_unitary steps
  refine ⟨_, C73_circuit p h1 steps hs hg, hermitian_conj (mix_hermitian hg), fun hne => ?_⟩
  rw [← mix_conj _ hU]
  have htr : (U * ground * Uᴴ).trace = 1 := by
    rw [trace_mul_comm, ← Matrix.mul_assoc, show Uᴴ * U = 1 from mem_unitaryGroup_iff'.mp hU, Matrix.one_mul]
    simp [ground, trace_fin_two]
  unfold mix
  change successRate 2 _ ideal = _
  rw [htr]
  have : ((((1 - p) ^ (steps.map Step.duration).sum : ℝ) : ℂ) • (U * ground * Uᴴ) +
      ((1 - (1 - p) ^ (steps.map Step.duration).sum : ℝ) : ℂ) • ((1 : ℂ) / 2) • (1 : Matrix (Fin 2) (Fin 2) ℂ)) 0 0 =
      (((1 - p) ^ (steps.map Step.duration).sum : ℝ) : ℂ) * (U * ground * Uᴴ) 0 0 +
        (((1 - (1 - p) ^ (steps.map Step.duration).sum) / 2 : ℝ) : ℂ) := by
    simp [Matrix.add_apply, Matrix.smul_apply]
    ring
  rw [this, Complex.add_re, Complex.re_ofReal_mul, Complex.ofReal_re]
  change successRate 2 ((1 - p) ^ (steps.map Step.duration).sum * ideal + _) ideal = _
  unfold successRate
  push_cast
  rw [div_eq_iff (sub_ne_zero.mpr hne)]
  ring

/-- A gate and the gate with the opposite angle: the rotation and phase errors cancel, whatever they are. -/
theorem C73_echo (em : JaqalNoisyEmulator) (h1 : em.depolarization ≤ 1) (φ θ : ℝ) :
    em.gateR φ (-θ) * em.gateR φ θ = em.idle (2 * (|θ| / (Real.pi / 2))) ∧
    (em.depolarization = 0 → em.gateMS φ (-θ) * em.gateMS φ θ = 1) := by
  have hpi := Real.pi_pos
  have hs : -θ + em.rRotationError * Real.sign (-θ) + (θ + em.rRotationError * Real.sign θ) = 0 := by
    rw [Real.sign_neg]; ring
  have hs2 : -θ + em.msRotationError * Real.sign (-θ) + (θ + em.msRotationError * Real.sign θ) = 0 := by
    rw [Real.sign_neg]; ring
  constructor
  · unfold JaqalNoisyEmulator.gateR JaqalNoisyEmulator.idle JaqalNoisyEmulator.gatedurationR
    simp only [U_R_eq, abs_neg]
    rw [Matrix.mul_assoc, ← Matrix.mul_assoc (diag1ddd _), diag1ddd_comm _ (turn_unitary _ _), Matrix.mul_assoc,
      diag1ddd_mul, ← Matrix.mul_assoc, ← basis1.gate_mul, turn_add, hs, turn_zero, basis1.gate_one, Matrix.one_mul,
      two_mul, Real.rpow_add_of_nonneg (by linarith) (by positivity) (by positivity)]
  · intro h0
    unfold JaqalNoisyEmulator.gateMS
    have hone : kroneckerMap (· * ·) (diag1ddd 1) (diag1ddd 1) = 1 := by
      rw [diag1ddd_one]; exact one_kronecker_one
    simp only [U_MS_eq, h0, sub_zero, Real.one_rpow, hone, Matrix.mul_one]
    rw [← basis2.gate_mul, turn2_add, hs2, turn2_zero, basis2.gate_one]

/-- `k` equal rotations by a positive angle are over-rotated `k` times the rotation error, however small the angle is. -/
theorem C73_over_rotation (em : JaqalNoisyEmulator) (h1 : em.depolarization ≤ 1) (φ : ℝ) {θ : ℝ} (hθ : 0 < θ) (k : ℕ) :
    em.gateR φ θ ^ k =
      unitaryToPauligate pauli (turn (φ + 2 * Real.pi * em.rPhaseError) (k * θ + k * em.rRotationError)) *
        diag1ddd ((1 - em.depolarization) ^ (k * θ / (Real.pi / 2))) := by
  have hpi := Real.pi_pos
  induction k with
  | zero => simp [turn_zero, basis1.gate_one, diag1ddd_one]
  | succ k ih =>
    rw [pow_succ, ih]
    unfold JaqalNoisyEmulator.gateR JaqalNoisyEmulator.gatedurationR
    simp only [U_R_eq, Real.sign_of_pos hθ, mul_one, abs_of_pos hθ]
    rw [Matrix.mul_assoc, ← Matrix.mul_assoc (diag1ddd _), diag1ddd_comm _ (turn_unitary _ _), Matrix.mul_assoc,
      diag1ddd_mul, ← Matrix.mul_assoc, ← basis1.gate_mul, turn_add]
    congr 3
    · push_cast; ring
    · rw [← Real.rpow_add_of_nonneg (by linarith) (by positivity) (by positivity)]
      congr 1
      push_cast; ring

/-- So `r_rotation_error` is not the over-rotation per `π/2` pulse that its description says: two rotations by `π/4` are
over-rotated by twice as much as one by `π/2`. -/
theorem C73_not_per_duration : ∃ em : JaqalNoisyEmulator, em.depolarization = 0 ∧
    em.gateR 0 (Real.pi / 4) * em.gateR 0 (Real.pi / 4) ≠ em.gateR 0 (Real.pi / 2) := by
  refine ⟨{ rRotationError := Real.pi / 2 }, rfl, fun h => ?_⟩
  have hpi := Real.pi_pos
  rw [← pow_two, C73_over_rotation _ (by norm_num) _ (by positivity)] at h
  unfold JaqalNoisyEmulator.gateR at h
  simp only [U_R_eq, Real.sign_of_pos (show 0 < Real.pi / 2 by positivity), sub_zero, Real.one_rpow, diag1ddd_one,
    Matrix.mul_one, mul_zero, add_zero] at h
  have hg : groundᴴ = ground := by ext r c; fin_cases r <;> fin_cases c <;> simp [ground]
  have h2 := congrArg (fun A => A.mulVec (coordsOf pauli ground)) h
  simp only [basis1.gate _ hg] at h2
  have h3 := congrFun (congrFun (basis1.coords_inj (hermitian_conj hg) (hermitian_conj hg) h2) 0) 0
  have h4 : ∀ α : ℝ, (turn 0 α * ground * (turn 0 α)ᴴ) 0 0 = ((Real.cos (α / 2) ^ 2 : ℝ) : ℂ) := by
    intro α
    have hr : (starRingEnd ℂ) (Complex.cos (α / 2)) = Complex.cos (α / 2) := by
      rw [show (α : ℂ) / 2 = ((α / 2 : ℝ) : ℂ) by push_cast; rfl, ← Complex.ofReal_cos, Complex.conj_ofReal]
    simp [turn, Gate.rot, axis, Gate.X, ground, Matrix.mul_apply, Fin.sum_univ_two, hr]
    ring
  rw [h4, h4, Complex.ofReal_inj] at h3
  have e1 : (((2 : ℕ) : ℝ) * (Real.pi / 4) + ((2 : ℕ) : ℝ) * (Real.pi / 2)) / 2 = Real.pi / 4 + Real.pi / 2 := by
    push_cast; ring
  have e2 : (Real.pi / 2 + Real.pi / 2 * 1) / 2 = Real.pi / 2 := by ring
  rw [e1, e2, Real.cos_pi_div_two, Real.cos_add_pi_div_two, Real.sin_pi_div_four] at h3
  have : (0 : ℝ) < √2 / 2 := by positivity
  nlinarith

/-- The durations of the named gates in units of a quarter turn: rotations about the z axis take no time, and the
two-qubit gate takes ten times as long.  Every gate is the gate without depolarization after the loss over its duration. -/
theorem C73_durations (em : JaqalNoisyEmulator) :
    (JaqalNoisyEmulator.Fixed.duration .Px = 2 ∧ JaqalNoisyEmulator.Fixed.duration .Py = 2 ∧
      JaqalNoisyEmulator.Fixed.duration .Pz = 0 ∧ JaqalNoisyEmulator.Fixed.duration .Sx = 1 ∧
      JaqalNoisyEmulator.Fixed.duration .Sy = 1 ∧ JaqalNoisyEmulator.Fixed.duration .Sz = 0 ∧
      JaqalNoisyEmulator.Fixed.duration .Sxd = 1 ∧ JaqalNoisyEmulator.Fixed.duration .Syd = 1 ∧
      JaqalNoisyEmulator.Fixed.duration .Szd = 0) ∧
    (∀ φ θ, JaqalNoisyEmulator.gatedurationMS φ θ = 10 * JaqalNoisyEmulator.gatedurationR φ θ) ∧
    (∀ f, em.gateFixed f = ({ em with depolarization := 0 } : JaqalNoisyEmulator).gateFixed f * em.idle f.duration) ∧
    ∀ θ, em.gateRx θ = ({ em with depolarization := 0 } : JaqalNoisyEmulator).gateRx θ *
        em.idle (JaqalNoisyEmulator.gatedurationR 0 θ) ∧
      em.gateRy θ = ({ em with depolarization := 0 } : JaqalNoisyEmulator).gateRy θ *
        em.idle (JaqalNoisyEmulator.gatedurationR (Real.pi / 2) θ) := by
  have hπ := Real.pi_pos
  have hR : ∀ φ θ, em.gateR φ θ = ({ em with depolarization := 0 } : JaqalNoisyEmulator).gateR φ θ *
      em.idle (JaqalNoisyEmulator.gatedurationR φ θ) := by
    intro φ θ
    simp [JaqalNoisyEmulator.gateR, JaqalNoisyEmulator.idle, diag1ddd_one]
  have h1 : ∀ φ, JaqalNoisyEmulator.gatedurationR φ Real.pi = 2 := by
    intro φ
    rw [JaqalNoisyEmulator.gatedurationR, abs_of_pos hπ]
    field_simp
  have h2 : ∀ φ, JaqalNoisyEmulator.gatedurationR φ (Real.pi / 2) = 1 := by
    intro φ
    rw [JaqalNoisyEmulator.gatedurationR, abs_of_pos (by positivity), div_self (by positivity)]
  have h3 : ∀ φ, JaqalNoisyEmulator.gatedurationR φ (-Real.pi / 2) = 1 := by
    intro φ
    rw [JaqalNoisyEmulator.gatedurationR, neg_div, abs_neg, abs_of_pos (by positivity), div_self (by positivity)]
  refine ⟨⟨h1 0, h1 (Real.pi / 2), rfl, h2 0, h2 (Real.pi / 2), rfl, h3 0, h3 (Real.pi / 2), rfl⟩, ?_, ?_, fun θ => ⟨hR _ _, hR _ _⟩⟩
  · intro φ θ
    rw [JaqalNoisyEmulator.gatedurationMS, JaqalNoisyEmulator.gatedurationR, mul_div_assoc]
  · have h0 : em.idle 0 = 1 := by simp [JaqalNoisyEmulator.idle, diag1ddd_one]
    rintro (_ | _ | _ | _ | _ | _ | _ | _ | _)
    all_goals first
      | exact hR _ _
      | (rw [JaqalNoisyEmulator.Fixed.duration, JaqalNoisyEmulator.gatedurationRz, h0, Matrix.mul_one]; rfl)

/-- The gates `Rx`, `Ry` and `Sxx` made from these: without errors, rotations about the x axis, about the y axis, and by a
quarter turn about the product of the x axes. -/
theorem C73_rotations (θ : ℝ) : (∀ ρ : Matrix (Fin 2) (Fin 2) ℂ, ρᴴ = ρ →
    (({} : JaqalNoisyEmulator).gateRx θ).mulVec (coords ρ) = coords (Gate.rot Gate.X θ * ρ * (Gate.rot Gate.X θ)ᴴ) ∧
    (({} : JaqalNoisyEmulator).gateRy θ).mulVec (coords ρ) = coords (Gate.rot Gate.Y θ * ρ * (Gate.rot Gate.Y θ)ᴴ)) ∧
    ∀ ρ : Matrix (Fin 2 × Fin 2) (Fin 2 × Fin 2) ℂ, ρᴴ = ρ →
      (({} : JaqalNoisyEmulator).gateSxx).mulVec (coords2 ρ) = coords2 (Gate.rot (kroneckerMap (· * ·) Gate.X Gate.X) (Real.pi / 2) * ρ *
        (Gate.rot (kroneckerMap (· * ·) Gate.X Gate.X) (Real.pi / 2))ᴴ) := by
  have plain : ∀ φ θ, ({} : JaqalNoisyEmulator).gateR φ θ = unitaryToPauligate pauli (turn φ θ) := by
    intro φ θ
    simp [JaqalNoisyEmulator.gateR, U_R_eq, diag1ddd_one]
  have hx : axis 0 = Gate.X := by simp [axis]
  have hy : axis (Real.pi / 2) = Gate.Y := by simp [axis]
  refine ⟨fun ρ hρ => ⟨?_, ?_⟩, fun ρ hρ => ?_⟩
  · rw [JaqalNoisyEmulator.gateRx, plain, turn, hx, coords_fun, coords_fun, basis1.gate _ hρ]
  · rw [JaqalNoisyEmulator.gateRy, plain, turn, hy, coords_fun, coords_fun, basis1.gate _ hρ]
  · have : ({} : JaqalNoisyEmulator).gateSxx = unitaryToPauligate pauli2 (turn2 0 (Real.pi / 2)) := by
      simp [JaqalNoisyEmulator.gateSxx, JaqalNoisyEmulator.gateMS, U_MS_eq, diag1ddd_one]
    rw [this, turn2, hx, coords2_fun, coords2_fun, basis2.gate _ hρ]

/-- Without errors the gates without parameters are the Pauli matrices and their square roots. -/
theorem C73_named (ρ : Matrix (Fin 2) (Fin 2) ℂ) (hρ : ρᴴ = ρ) :
    (({} : JaqalNoisyEmulator).gateFixed .Px).mulVec (coords ρ) = coords (Gate.X * ρ * Gate.X) ∧
    (({} : JaqalNoisyEmulator).gateFixed .Py).mulVec (coords ρ) = coords (Gate.Y * ρ * Gate.Y) ∧
    (({} : JaqalNoisyEmulator).gateFixed .Pz).mulVec (coords ρ) = coords (Gate.Z * ρ * Gate.Z) ∧
    (∀ em : JaqalNoisyEmulator, em.depolarization ≤ 1 →
      em.gateFixed .Sxd * em.gateFixed .Sx = em.idle 2 ∧ em.gateFixed .Syd * em.gateFixed .Sy = em.idle 2 ∧
      em.gateFixed .Szd * em.gateFixed .Sz = 1) ∧
    (({} : JaqalNoisyEmulator).gateFixed .Sx ^ 2 = ({} : JaqalNoisyEmulator).gateFixed .Px) ∧
    (({} : JaqalNoisyEmulator).gateFixed .Sy ^ 2 = ({} : JaqalNoisyEmulator).gateFixed .Py) ∧
    (({} : JaqalNoisyEmulator).gateFixed .Sz ^ 2 = ({} : JaqalNoisyEmulator).gateFixed .Pz) := by
  have plain : ∀ φ θ, ({} : JaqalNoisyEmulator).gateR φ θ = unitaryToPauligate pauli (turn φ θ) := by
    intro φ θ
    simp [JaqalNoisyEmulator.gateR, U_R_eq, diag1ddd_one]
  have half : ∀ P : Matrix (Fin 2) (Fin 2) ℂ, Gate.rot P Real.pi = (-I) • P := by
    intro P
    simp [Gate.rot]
  have hx : axis 0 = Gate.X := by simp [axis]
  have hy : axis (Real.pi / 2) = Gate.Y := by simp [axis]
  have hn : ‖(-I : ℂ)‖ = 1 := by simp
  refine ⟨?_, ?_, ?_, fun em h1 => ⟨?_, ?_, ?_⟩, ?_, ?_, ?_⟩
  · simp only [JaqalNoisyEmulator.gateFixed]
    rw [plain, turn, half, hx, basis1.gate_smul _ hn, coords_fun, coords_fun, basis1.gate _ hρ, Gate.X_ct]
  · simp only [JaqalNoisyEmulator.gateFixed]
    rw [plain, turn, half, hy, basis1.gate_smul _ hn, coords_fun, coords_fun, basis1.gate _ hρ, Gate.Y_ct]
  · simp only [JaqalNoisyEmulator.gateFixed, JaqalNoisyEmulator.gateRz]
    rw [U_Rz_eq, half, basis1.gate_smul _ hn, coords_fun, coords_fun, basis1.gate _ hρ, Gate.Z_ct]
  · have := (C73_echo em h1 0 (Real.pi / 2)).1
    rw [abs_of_pos (by positivity), div_self (by positivity), mul_one, ← neg_div] at this
    exact this
  · have := (C73_echo em h1 (Real.pi / 2) (Real.pi / 2)).1
    rw [abs_of_pos (by positivity), div_self (by positivity), mul_one, ← neg_div] at this
    exact this
  · simp only [JaqalNoisyEmulator.gateFixed, JaqalNoisyEmulator.gateRz]
    rw [← basis1.gate_mul, U_Rz_eq, U_Rz_eq, Gate.rot_add Gate.Z_sq, neg_div, neg_add_cancel, Gate.rot_zero,
      basis1.gate_one]
  · simp only [JaqalNoisyEmulator.gateFixed]
    rw [plain, plain, pow_two, ← basis1.gate_mul, turn_add, add_halves]
  · simp only [JaqalNoisyEmulator.gateFixed]
    rw [plain, plain, pow_two, ← basis1.gate_mul, turn_add, add_halves]
  · simp only [JaqalNoisyEmulator.gateFixed, JaqalNoisyEmulator.gateRz]
    rw [pow_two, ← basis1.gate_mul, U_Rz_eq, U_Rz_eq, Gate.rot_add Gate.Z_sq, add_halves]

/-! ## Values that meet the hypotheses -/

/-- Waiting takes `|0⟩` to a state whose probability of `0` is `(1 + (1 - p)^t) / 2`. -/
example (p t : ℝ) : ∃ ρ, (({ depolarization := p } : JaqalNoisyEmulator).idle t).mulVec (coords ground) = coords ρ ∧
    (ρ 0 0).re = (1 + (1 - p) ^ t) / 2 := by
  refine ⟨_, C73_idle _ t _, ?_⟩
  simp [mix, ground, trace_fin_two]
  ring

example : IsState ground ∧ (∀ s ∈ [Step.R 0 (Real.pi / 2), .wait 3, .R 0 (-Real.pi / 2)], 0 ≤ s.duration) ∧
    ([Step.R 0 (Real.pi / 2), .wait 3, .R 0 (-Real.pi / 2)].map Step.duration).sum = 5 ∧
    ((inOrder Step.ideal [Step.R 0 (Real.pi / 2), .wait 3, .R 0 (-Real.pi / 2)] * ground *
      (inOrder Step.ideal [Step.R 0 (Real.pi / 2), .wait 3, .R 0 (-Real.pi / 2)])ᴴ) 0 0).re ≠ 1 / 2 := by
  have hpi := Real.pi_pos
  refine ⟨⟨?_, by simp [ground, trace_fin_two]⟩, ?_, ?_, ?_⟩
  · have : ground = ground * groundᴴ := by
      ext r c; fin_cases r <;> fin_cases c <;> simp [ground, Matrix.mul_apply]
    rw [this]
    exact posSemidef_self_mul_conjTranspose _
  · intro s hs
    simp only [List.mem_cons, List.not_mem_nil, or_false] at hs
    rcases hs with rfl | rfl | rfl
    · simp only [Step.duration]; positivity
    · simp only [Step.duration]; norm_num
    · simp only [Step.duration]; positivity
  · simp only [Step.duration, List.map_cons, List.map_nil, List.sum_cons, List.sum_nil, neg_div, abs_neg,
      abs_of_pos (show 0 < Real.pi / 2 by positivity)]
    field_simp
    norm_num
  · have : inOrder Step.ideal [Step.R 0 (Real.pi / 2), .wait 3, .R 0 (-Real.pi / 2)] = 1 := by
      simp only [inOrder, Step.ideal, Matrix.one_mul, Matrix.mul_one]
      rw [turn_add, neg_div, neg_add_cancel, turn_zero]
    rw [this]
    simp [ground]

end Stoq
