import Verif.Proofs.Evolution
import Verif.Proofs.Sequence
import Verif.Proofs.Parameterized
import Verif.Props.Gates
import Verif.Proofs.Gms

/-!
# Property C29: time evolution

In exact arithmetic with clean-up threshold 0, for every Hermitian matrix of every size.
-/

namespace Stoq

open Matrix Complex UnitaryDefinitions

variable {d : ℕ}

theorem Arr.IsHermitianClose.of_is {h : Arr} {H : Matrix (Fin d) (Fin d) ℂ} (hh : h.Is H) (hH : H.IsHermitian) :
    h.IsHermitianClose :=
  ⟨hh.1.trans hh.2.1.symm, Arr.allclose_of_eq hh.1 hh.2.1 (by rw [Arr.toMatrix_ct, hh.2.2, hH.eq])⟩

theorem expm_is {h : Arr} {H : Matrix (Fin d) (Fin d) ℂ} (hh : h.Is H) (t : ℝ) :
    (Arr.expm ((h.smul I).smul (t : ℂ))).Is (evolution H t) := by
  obtain ⟨rfl, hc, rfl⟩ := hh
  refine ⟨rfl, rfl, ?_⟩
  ext i j
  simp only [Arr.expm, Arr.ofMatrix, Arr.toMatrix, evolution]
  rw [dif_pos ⟨i.2, j.2⟩]
  have : ((h.smul I).smul (t : ℂ)).toMatrix h.rows = (I * t) • h.toMatrix h.rows := by
    ext a b
    simp only [Arr.smul, Matrix.smul_apply, Arr.toMatrix, smul_eq_mul]
    ring
  change NormedSpace.exp (((h.smul I).smul (t : ℂ)).toMatrix h.rows) i j = _
  rw [this]

theorem samePhase_of_left {A B C : Matrix (Fin d) (Fin d) ℂ} (h1 : SamePhase A C) (h2 : SamePhase B C) :
    SamePhase A B := by
  obtain ⟨a, ha, rfl⟩ := h1
  obtain ⟨b, hb, rfl⟩ := h2
  have hb0 : b ≠ 0 := by rintro rfl; simp at hb
  exact ⟨a / b, by rw [norm_div, ha, hb, div_one], by rw [smul_smul, div_mul_cancel₀ _ hb0]⟩

/-! ## C29 -/

/-- `time_evolution(h, t)` succeeds for every Hermitian `h` and every time; the result is `exp(i h t)` up to the
global phase that makes the determinant one, and exactly `exp(i h t)` when `h` is traceless. -/
theorem C29_evolution {h : Arr} {H : Matrix (Fin d) (Fin d) ℂ} (hd : 0 < d) (hh : h.Is H) (hH : H.IsHermitian)
    (t : ℝ) (suffix : String) : ∃ u, timeEvolution 0 h t suffix = .ok u ∧ u.Exact d ∧
      SamePhase (u.matrix.toMatrix d) (evolution H t) ∧ (H.trace = 0 → u.Holds (evolution H t)) ∧
      u.operationName = "H" ++ suffix ∧ u.parameterDict = [("t", (t, false))] ∧ u.isInverse = false := by
  have hA := expm_is hh t
  have hU : (Arr.expm ((h.smul I).smul (t : ℂ))).toMatrix d ∈ unitaryGroup (Fin d) ℂ := by
    rw [hA.2.2]; exact evolution_unitary hH t
  obtain ⟨c, h1, h2, h3, h4⟩ := Unitary.new_exact hd hA.1 hA.2.1 hU (some ("H" ++ suffix))
    (some [("t", (t, false))]) false []
  obtain ⟨v, e1, e2, e3, -⟩ := Unitary.new_phase hd hA.1 hA.2.1 hU (some ("H" ++ suffix))
    (some [("t", (t, false))])
  rw [h4] at e1
  cases e1
  refine ⟨_, ?_, e2, hA.2.2 ▸ e3, ?_, rfl, rfl, rfl⟩
  · unfold timeEvolution
    rw [assertE_of (Arr.IsHermitianClose.of_is hh hH), ok_bind, hh.1]
    exact h4
  · intro htr
    have hdet : (Arr.expm ((h.smul I).smul (t : ℂ))).det = 1 := by
      rw [Arr.det_eq hA.1, hA.2.2, evolution_det hH, htr]; simp
    rw [h3 hdet, Arr.smul_one]
    exact hA

/-- Time 0 is exactly the identity. -/
theorem C29_zero {h : Arr} {H : Matrix (Fin d) (Fin d) ℂ} (hd : 0 < d) (hh : h.Is H) (hH : H.IsHermitian)
    (suffix : String) :
    ∃ u, timeEvolution 0 h 0 suffix = .ok u ∧ u.Holds (1 : Matrix (Fin d) (Fin d) ℂ) := by
  have hA := expm_is hh 0
  rw [evolution_zero] at hA
  obtain ⟨u, h1, h2, -⟩ := Unitary.new_su_holds hd hA (one_mem _) (some ("H" ++ suffix))
    (some [("t", ((0 : ℝ), false))])
  refine ⟨u, ?_, h2⟩
  unfold timeEvolution
  rw [assertE_of (Arr.IsHermitianClose.of_is hh hH), ok_bind, hh.1]
  exact h1

/-- Composing evolutions adds the times: up to a global phase in general, exactly when `h` is traceless. -/
theorem C29_compose {h : Arr} {H : Matrix (Fin d) (Fin d) ℂ} (hd : 0 < d) (hh : h.Is H) (hH : H.IsHermitian)
    (s t : ℝ) (suffix : String) : ∃ u v w x, timeEvolution 0 h s suffix = .ok u ∧
      timeEvolution 0 h t suffix = .ok v ∧ timeEvolution 0 h (s + t) suffix = .ok w ∧
      u.leftMultiply 0 v = .ok x ∧ x.Exact d ∧ SamePhase (x.matrix.toMatrix d) (w.matrix.toMatrix d) ∧
      (H.trace = 0 → x.Holds (w.matrix.toMatrix d)) := by
  obtain ⟨u, u1, u2, u3, u4, -⟩ := C29_evolution hd hh hH s suffix
  obtain ⟨v, v1, v2, v3, v4, -⟩ := C29_evolution hd hh hH t suffix
  obtain ⟨w, w1, w2, w3, w4, -⟩ := C29_evolution hd hh hH (s + t) suffix
  obtain ⟨x, x1, x2, x3⟩ := leftMultiply_exact u2 v2
  refine ⟨u, v, w, x, u1, v1, w1, x1, x2, samePhase_of_left ?_ w3, ?_⟩
  · obtain ⟨a, ha, ha'⟩ := u3
    obtain ⟨b, hb, hb'⟩ := v3
    refine ⟨b * a, by rw [norm_mul, ha, hb, one_mul], ?_⟩
    rw [x3, ha', hb', smul_mul_smul_comm, ← evolution_add, add_comm t s]
  · intro htr
    refine ⟨x2.rows, x2.cols, ?_⟩
    rw [x3, (u4 htr).2.2, (v4 htr).2.2, (w4 htr).2.2, ← evolution_add, add_comm t s]

/-- `inverse()` is evolution backwards in time: up to a global phase in general, exactly when `h` is traceless. -/
theorem C29_inverse {h : Arr} {H : Matrix (Fin d) (Fin d) ℂ} (hd : 0 < d) (hh : h.Is H) (hH : H.IsHermitian)
    (t : ℝ) (suffix : String) : ∃ u v x, timeEvolution 0 h t suffix = .ok u ∧
      timeEvolution 0 h (-t) suffix = .ok v ∧ u.inverse 0 = .ok x ∧
      SamePhase (x.matrix.toMatrix d) (v.matrix.toMatrix d) ∧
      (H.trace = 0 → x.Holds (v.matrix.toMatrix d)) := by
  obtain ⟨u, u1, u2, u3, u4, -⟩ := C29_evolution hd hh hH t suffix
  obtain ⟨v, v1, v2, v3, v4, -⟩ := C29_evolution hd hh hH (-t) suffix
  refine ⟨u, v, _, u1, v1, Unitary.inverse_eq u2, samePhase_of_left ?_ v3, ?_⟩
  · obtain ⟨a, ha, ha'⟩ := u3
    refine ⟨star a, by rw [norm_star, ha], ?_⟩
    change u.matrix.ct.toMatrix d = _
    rw [Arr.toMatrix_ct, ha', conjTranspose_smul, evolution_ct hH]
  · intro htr
    refine ⟨u2.cols, u2.rows, ?_⟩
    change u.matrix.ct.toMatrix d = _
    rw [Arr.toMatrix_ct, (u4 htr).2.2, (v4 htr).2.2, evolution_ct hH]

/-- A matrix that is not close to its conjugate transpose is rejected, whatever the time and the clean-up
threshold. -/
theorem C29_reject {h : Arr} (hne : ¬ (h.rows = h.cols ∧ ∀ i < h.rows, ∀ j < h.cols,
      ‖h.val i j - (starRingEnd ℂ) (h.val j i)‖ ≤ 1e-8 + 1e-5 * ‖h.val j i‖)) (τ : Arith) (t : ℝ) (suffix : String) :
    timeEvolution τ h t suffix = .error .assertion := by
  unfold timeEvolution
  rw [assertE_of_not]
  · rfl
  · intro hc
    refine hne ⟨hc.1, fun i hi j hj => ?_⟩
    have := hc.2 i hi j hj
    simpa [isclose, Arr.ct] using this

/-- A rejected matrix: the raising operator. -/
example (τ : Arith) (t : ℝ) : timeEvolution τ (Arr.ofRows [[0, 1], [0, 0]]) t "" = .error .assertion :=
  C29_reject (fun h => by
    have := h.2 0 (by simp [Arr.ofRows]) 1 (by simp [Arr.ofRows])
    simp [Arr.ofRows] at this
    norm_num at this) τ t ""

theorem X_is : (Arr.ofRows [[0, 1], [1, 0]]).Is Gate.X :=
  ⟨rfl, rfl, by ext i j; fin_cases i <;> fin_cases j <;> simp [Arr.toMatrix, Arr.ofRows, Gate.X]⟩

/-- Evolution under Pauli X for the time `-θ/2` is `rx(θ)`. -/
theorem C29_rx (θ : ℝ) : ∃ u v, timeEvolution 0 (Arr.ofRows [[0, 1], [1, 0]]) (-θ / 2) "" = .ok u ∧
    rx 0 θ = .ok v ∧ u.Holds (v.matrix.toMatrix 2) := by
  obtain ⟨u, h1, -, -, h4, -⟩ := C29_evolution (by norm_num) X_is Gate.X_ct (-θ / 2) ""
  obtain ⟨v, e1, e2, -⟩ := C27_rx θ
  refine ⟨u, v, h1, e1, ?_⟩
  have := h4 (by simp [Gate.X, Matrix.trace, Fin.sum_univ_two])
  rw [e2.2.2, Gate.rot_eq_exp Gate.X_sq]
  convert this using 1
  unfold evolution
  congr 2
  push_cast; ring

/-- The global phase chosen by the constructor. -/
theorem timeEvolution_phase {h : Arr} {H : Matrix (Fin d) (Fin d) ℂ} (hh : h.Is H) (hH : H.IsHermitian) {t : ℝ}
    {suffix : String} {u : Unitary} (hu : timeEvolution 0 h t suffix = .ok u) :
    u.matrix.toMatrix d = ((1 / Complex.exp (I * t * H.trace)) ^ (1 / (d : ℂ))) • evolution H t := by
  unfold timeEvolution at hu
  rw [assertE_of (Arr.IsHermitianClose.of_is hh hH), ok_bind, hh.1, Unitary.new_eq_ok] at hu
  have hA := expm_is hh t
  rw [hu.2.2.2.2.2]
  simp only [Option.getD_some, Arith.zero_tau, Arith.zero_balanced, Arr.clean_zero]
  rw [Arith.zero_evolved, Arr.toMatrix_smul, hA.2.2, Arr.det_eq hA.1, hA.2.2, evolution_det hH]

theorem sqrt_neg_one : (1 / (-1 : ℂ)) ^ (1 / ((2 : ℕ) : ℂ)) = I := by
  rw [show (1 / (-1 : ℂ)) = -1 by norm_num, cpow_def_of_ne_zero (by norm_num), log_neg_one]
  rw [show (Real.pi : ℂ) * I * (1 / ((2 : ℕ) : ℂ)) = (Real.pi : ℂ) / 2 * I by push_cast; ring,
    exp_pi_div_two_mul_I]

/-- When the trace is not zero `inverse()` and evolution backwards in time may hold different matrices: for
`diag(1, 0)` and `t = π` they differ by the sign. -/
theorem C29_inverse_phase : ∃ u v x, timeEvolution 0 (Arr.ofRows [[1, 0], [0, 0]]) Real.pi "" = .ok u ∧
    timeEvolution 0 (Arr.ofRows [[1, 0], [0, 0]]) (-Real.pi) "" = .ok v ∧ u.inverse 0 = .ok x ∧
    x.Holds (-(v.matrix.toMatrix 2)) ∧ ¬ x.Holds (v.matrix.toMatrix 2) := by
  have hh : (Arr.ofRows [[1, 0], [0, 0]]).Is (!![1, 0; 0, 0] : Matrix (Fin 2) (Fin 2) ℂ) :=
    ⟨rfl, rfl, by ext i j; fin_cases i <;> fin_cases j <;> simp [Arr.toMatrix, Arr.ofRows]⟩
  have hH : (!![1, 0; 0, 0] : Matrix (Fin 2) (Fin 2) ℂ).IsHermitian := by
    ext i j; fin_cases i <;> fin_cases j <;> simp
  have htr : (!![1, 0; 0, 0] : Matrix (Fin 2) (Fin 2) ℂ).trace = 1 := by simp [Matrix.trace, Fin.sum_univ_two]
  obtain ⟨u, u1, u2, -⟩ := C29_evolution (by norm_num) hh hH Real.pi ""
  obtain ⟨v, v1, v2, -⟩ := C29_evolution (by norm_num) hh hH (-Real.pi) ""
  have hu := timeEvolution_phase hh hH u1
  have hv := timeEvolution_phase hh hH v1
  rw [htr, mul_one, mul_comm I, exp_pi_mul_I, sqrt_neg_one] at hu
  rw [htr, mul_one, mul_comm I, ofReal_neg, neg_mul, exp_neg, exp_pi_mul_I, inv_neg, inv_one, sqrt_neg_one] at hv
  have hx : u.matrix.ct.toMatrix 2 = -(v.matrix.toMatrix 2) := by
    rw [Arr.toMatrix_ct, hu, hv, conjTranspose_smul, evolution_ct hH]
    simp
  refine ⟨u, v, _, u1, v1, Unitary.inverse_eq u2, ⟨u2.cols, u2.rows, hx⟩, ?_⟩
  intro hc
  have h0 : v.matrix.toMatrix 2 = -(v.matrix.toMatrix 2) := hc.2.2.symm.trans hx
  have h1 : v.matrix.toMatrix 2 = 0 := by
    ext i j
    have := congrFun (congrFun h0 i) j
    rw [Matrix.neg_apply, eq_neg_iff_add_eq_zero, ← two_mul] at this
    simpa using this
  have h2 := (mem_specialUnitaryGroup_iff.mp v2.2.2.2).2
  rw [h1] at h2
  simp at h2

/-- The parameterised evolution accepts exactly the times of its range and evaluates to `time_evolution`. -/
theorem C29_parameterized {h : Arr} {H : Matrix (Fin d) (Fin d) ℂ} (hd : 0 < d) (hh : h.Is H)
    (hH : H.IsHermitian) {tMin tMax : ℝ} (hle : tMin ≤ tMax) (suffix : String) :
    ∃ pu, ParamDefinitions.timeEvolution 0 h tMin tMax suffix = .ok pu ∧ pu.dimension = d ∧
      (∀ t ∈ Set.Icc tMin tMax, ∃ u v, pu.asUnitary 0 [t] = .ok u ∧ timeEvolution 0 h t suffix = .ok v ∧
        u.Exact d ∧ u.Holds (v.matrix.toMatrix d) ∧ u.operationName = "H" ++ suffix ∧
        u.parameterDict = [("t", (t, false))]) ∧
      (∀ t, t ∉ Set.Icc tMin tMax → pu.asUnitary 0 [t] = .error .assertion) := by
  refine ⟨ParamUnitary.mk d (fun vs => match vs with
    | [t] => do return (← timeEvolution 0 h t suffix).getMatrix
    | _ => .error .typeError) [⟨"t", tMin, tMax, false⟩] ("H" ++ suffix), ?_, rfl, ?_, ?_⟩
  · unfold ParamDefinitions.timeEvolution Parameter.new ParamUnitary.new
    rw [assertE_of (Arr.IsHermitianClose.of_is hh hH), ok_bind, assertE_of hle, ok_bind,
      assertE_of (by decide), ok_bind, ok_bind, pure_except, ok_bind, hh.1, assertE_of hd, ok_bind]
    rfl
  · intro t ht
    rw [asUnitary_eq rfl (by
      intro pv hpv
      simp only [List.zip_cons_cons, List.zip_nil_right, List.mem_cons, List.not_mem_nil, or_false] at hpv
      subst hpv
      exact ht)]
    obtain ⟨v, h1, h2, -⟩ := C29_evolution hd hh hH t suffix
    obtain ⟨u, e1, e2, e3, e4, e5⟩ := Unitary.new_su_holds hd (a := v.matrix) ⟨h2.rows, h2.cols, rfl⟩ h2.2.2.2
      (some ("H" ++ suffix)) (some [("t", (t, false))])
    refine ⟨u, v, ?_, h1, e3, e2, e4, e5⟩
    simp only [h1, ok_bind, pure_except]
    exact e1
  · intro t ht
    unfold ParamUnitary.asUnitary
    rw [raiseUnless_of (by simp), ok_bind, assertE_of_not]
    · rfl
    · intro hv
      exact ht (hv (⟨"t", tMin, tMax, false⟩, t) (by simp))

end Stoq
