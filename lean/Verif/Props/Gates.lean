import Verif.Proofs.Gates
import Verif.Proofs.Parameterized

/-!
# Property C27: the standard gates

All in exact arithmetic with clean-up threshold 0.
-/

namespace Stoq

open Matrix Complex UnitaryDefinitions

/-! ## C27 -/

/-- `rx` succeeds for every angle and is the rotation generated by X. -/
theorem C27_rx (θ : ℝ) : ∃ u, rx 0 θ = .ok u ∧ u.Holds (Gate.rot Gate.X θ) ∧ u.Exact 2 ∧
    u.operationName = "Rx" ∧ u.parameterDict = [("θ", (θ, true))] :=
  Unitary.new_su_holds (by norm_num) (rxMatrix_is θ) (Gate.rot_X_su θ) _ _

/-- `ry` succeeds for every angle and is the rotation generated by Y. -/
theorem C27_ry (θ : ℝ) : ∃ u, ry 0 θ = .ok u ∧ u.Holds (Gate.rot Gate.Y θ) ∧ u.Exact 2 ∧
    u.operationName = "Ry" ∧ u.parameterDict = [("θ", (θ, true))] :=
  Unitary.new_su_holds (by norm_num) (ryMatrix_is θ) (Gate.rot_Y_su θ) _ _

/-- `rz` succeeds for every angle and is the rotation generated by Z. -/
theorem C27_rz (θ : ℝ) : ∃ u, rz 0 θ = .ok u ∧ u.Holds (Gate.rot Gate.Z θ) ∧ u.Exact 2 ∧
    u.operationName = "Rz" ∧ u.parameterDict = [("θ", (θ, true))] :=
  Unitary.new_su_holds (by norm_num) (rzMatrix_is θ) (Gate.rot_Z_su θ) _ _

/-- `rphi` succeeds for all angles and is the rotation about the axis `cos φ X + sin φ Y`. -/
theorem C27_rphi (θ φ : ℝ) : ∃ u, rphi 0 θ φ = .ok u ∧
    u.Holds (Gate.rot ((Real.cos φ : ℂ) • Gate.X + (Real.sin φ : ℂ) • Gate.Y) θ) ∧ u.Exact 2 ∧
    u.operationName = "R" ∧ u.parameterDict = [("θ", (θ, true)), ("Φ", (φ, true))] :=
  Unitary.new_su_holds (by norm_num) (rphiMatrix_is θ φ) (Gate.rot_axis_su θ φ) _ _

/-- `xx` succeeds for every angle and is `exp(-i θ X⊗X)`. -/
theorem C27_xx (θ : ℝ) : ∃ u, xx 0 θ = .ok u ∧ u.Holds (Gate.rot Gate.XX (2 * θ)) ∧ u.Exact 4 ∧
    u.operationName = "XX" ∧ u.parameterDict = [("θ", (θ, true))] :=
  Unitary.new_su_holds (by norm_num) (xxMatrix_is θ) (Gate.rot_XX_su _) _ _

/-- A family of library gates forms a one-parameter group: it never raises, composing adds the angles, `inverse()`
negates the angle, and angle 0 is the identity. -/
def OneParameterGroup (g : ℝ → Except PyErr Unitary) (d : ℕ) : Prop :=
  (∀ θ, ∃ u, g θ = .ok u) ∧
  (∀ a b u v w, g a = .ok u → g b = .ok v → g (a + b) = .ok w →
    ∃ x, u.leftMultiply 0 v = .ok x ∧ x.Holds (w.matrix.toMatrix d)) ∧
  (∀ a u v, g a = .ok u → g (-a) = .ok v → ∃ x, u.inverse 0 = .ok x ∧ x.Holds (v.matrix.toMatrix d)) ∧
  (∀ u, g 0 = .ok u → u.Holds (1 : Matrix (Fin d) (Fin d) ℂ))

theorem oneParameterGroup_of {g : ℝ → Except PyErr Unitary} {d : ℕ} {k : ℝ} {P : Matrix (Fin d) (Fin d) ℂ}
    (h : ∀ θ, ∃ u, g θ = .ok u ∧ u.Holds (Gate.rot P (k * θ)) ∧ u.Exact d) (hP : P * P = 1) (hH : Pᴴ = P) :
    OneParameterGroup g d := by
  have key : ∀ {θ u}, g θ = .ok u → u.Holds (Gate.rot P (k * θ)) ∧ u.Exact d := by
    intro θ u hu
    obtain ⟨u', h1, h2⟩ := h θ
    rw [hu] at h1
    cases h1
    exact h2
  refine ⟨fun θ => ⟨_, (h θ).choose_spec.1⟩, ?_, ?_, ?_⟩
  · intro a b u v w hu hv hw
    obtain ⟨u1, u2⟩ := key hu
    obtain ⟨v1, v2⟩ := key hv
    obtain ⟨w1, w2⟩ := key hw
    refine ⟨_, Unitary.leftMultiply_eq u2 v2, v2.rows, u2.cols, ?_⟩
    rw [w1.2.2]
    change (v.matrix.matmul u.matrix).toMatrix d = _
    rw [Arr.toMatrix_matmul v2.cols, v1.2.2, u1.2.2, Gate.rot_add hP, add_comm, mul_add]
  · intro a u v hu hv
    obtain ⟨u1, u2⟩ := key hu
    obtain ⟨v1, v2⟩ := key hv
    refine ⟨_, Unitary.inverse_eq u2, u2.cols, u2.rows, ?_⟩
    rw [v1.2.2]
    change (u.matrix.ct).toMatrix d = _
    rw [Arr.toMatrix_ct, u1.2.2, Gate.rot_ct hH, mul_neg]
  · intro u hu
    have := (key hu).1
    rwa [mul_zero, Gate.rot_zero] at this

/-- `rx`, `ry`, `rz`, `xx`, and `rphi` about any fixed axis are one-parameter groups. -/
theorem C27_groups : OneParameterGroup (rx 0) 2 ∧ OneParameterGroup (ry 0) 2 ∧ OneParameterGroup (rz 0) 2 ∧
    OneParameterGroup (fun θ => xx 0 θ) 4 ∧ ∀ φ, OneParameterGroup (fun θ => rphi 0 θ φ) 2 := by
  refine ⟨oneParameterGroup_of (k := 1) ?_ Gate.X_sq Gate.X_ct, oneParameterGroup_of (k := 1) ?_ Gate.Y_sq Gate.Y_ct,
    oneParameterGroup_of (k := 1) ?_ Gate.Z_sq Gate.Z_ct, oneParameterGroup_of (k := 2) ?_ Gate.XX_sq Gate.XX_ct,
    fun φ => oneParameterGroup_of (k := 1) ?_ (Gate.axis_sq φ) (Gate.axis_ct φ)⟩
  · intro θ; obtain ⟨u, h1, h2, h3, -⟩ := C27_rx θ; exact ⟨u, h1, by rwa [one_mul], h3⟩
  · intro θ; obtain ⟨u, h1, h2, h3, -⟩ := C27_ry θ; exact ⟨u, h1, by rwa [one_mul], h3⟩
  · intro θ; obtain ⟨u, h1, h2, h3, -⟩ := C27_rz θ; exact ⟨u, h1, by rwa [one_mul], h3⟩
  · intro θ; obtain ⟨u, h1, h2, h3, -⟩ := C27_xx θ; exact ⟨u, h1, h2, h3⟩
  · intro θ; obtain ⟨u, h1, h2, h3, -⟩ := C27_rphi θ φ; exact ⟨u, h1, by rwa [one_mul], h3⟩

/-- `rphi(θ, 0)` is `rx(θ)` and `rphi(θ, π/2)` is `ry(θ)`. -/
theorem C27_rphi_axes (θ : ℝ) :
    (∃ u v, rphi 0 θ 0 = .ok u ∧ rx 0 θ = .ok v ∧ u.Holds (v.matrix.toMatrix 2)) ∧
    (∃ u v, rphi 0 θ (Real.pi / 2) = .ok u ∧ ry 0 θ = .ok v ∧ u.Holds (v.matrix.toMatrix 2)) := by
  constructor
  · obtain ⟨u, h1, h2, -⟩ := C27_rphi θ 0
    obtain ⟨v, h3, h4, -⟩ := C27_rx θ
    refine ⟨u, v, h1, h3, ?_⟩
    rw [h4.2.2]
    simpa using h2
  · obtain ⟨u, h1, h2, -⟩ := C27_rphi θ (Real.pi / 2)
    obtain ⟨v, h3, h4, -⟩ := C27_ry θ
    refine ⟨u, v, h1, h3, ?_⟩
    rw [h4.2.2]
    rw [Real.cos_pi_div_two, Real.sin_pi_div_two] at h2
    simpa using h2

/-- A full turn changes the stored matrix by the global phase -1, two full turns not at all. -/
theorem C27_periodic (θ : ℝ) : ∃ u v w, rx 0 θ = .ok u ∧ rx 0 (θ + 2 * Real.pi) = .ok v ∧
    rx 0 (θ + 4 * Real.pi) = .ok w ∧ v.Holds (-(u.matrix.toMatrix 2)) ∧ w.Holds (u.matrix.toMatrix 2) := by
  obtain ⟨u, h1, h2, -⟩ := C27_rx θ
  obtain ⟨v, h3, h4, -⟩ := C27_rx (θ + 2 * Real.pi)
  obtain ⟨w, h5, h6, -⟩ := C27_rx (θ + 4 * Real.pi)
  refine ⟨u, v, w, h1, h3, h5, ?_, ?_⟩
  · rw [h2.2.2]
    convert h4 using 1
    unfold Gate.rot
    rw [show (θ + 2 * Real.pi) / 2 = θ / 2 + Real.pi by ring, Real.cos_add_pi, Real.sin_add_pi]
    push_cast
    module
  · rw [h2.2.2]
    convert h6 using 1
    unfold Gate.rot
    rw [show (θ + 4 * Real.pi) / 2 = θ / 2 + 2 * Real.pi by ring, Real.cos_add_two_pi, Real.sin_add_two_pi]

/-- Re-wrapping a gate under another name keeps its matrix. -/
theorem rename_holds {d : ℕ} {u : Unitary} {M : Matrix (Fin d) (Fin d) ℂ} (hu : u.Holds M) (he : u.Exact d)
    (name : String) : ∃ v, Unitary.new 0 u.getDimension (some u.getMatrix) (some name) = .ok v ∧
      v.Holds M ∧ v.Exact d ∧ v.operationName = name := by
  rw [he.dim]
  have := Unitary.new_su he.pos he.rows he.cols he.2.2.2 (some name) none false []
  exact ⟨_, this, hu, he, rfl⟩

/-- `sigmax`, `sigmay`, `sigmaz` are the Pauli matrices up to the global phase `-i`. -/
theorem C27_pauli :
    (∃ u, sigmax 0 = .ok u ∧ u.Exact 2 ∧ u.Holds ((-I) • Gate.X) ∧ u.operationName = "X") ∧
    (∃ u, sigmay 0 = .ok u ∧ u.Exact 2 ∧ u.Holds ((-I) • Gate.Y) ∧ u.operationName = "Y") ∧
    (∃ u, sigmaz 0 = .ok u ∧ u.Exact 2 ∧ u.Holds ((-I) • Gate.Z) ∧ u.operationName = "Z") := by
  have hrot : ∀ P : Matrix (Fin 2) (Fin 2) ℂ, Gate.rot P Real.pi = (-I) • P := by
    intro P; simp [Gate.rot]
  refine ⟨?_, ?_, ?_⟩
  · obtain ⟨u, h1, h2, h3, -⟩ := C27_rx Real.pi
    obtain ⟨v, e1, e2, e3, e4⟩ := rename_holds h2 h3 "X"
    exact ⟨v, by unfold sigmax; rw [h1, ok_bind, e1], e3, hrot _ ▸ e2, e4⟩
  · obtain ⟨u, h1, h2, h3, -⟩ := C27_ry Real.pi
    obtain ⟨v, e1, e2, e3, e4⟩ := rename_holds h2 h3 "Y"
    exact ⟨v, by unfold sigmay; rw [h1, ok_bind, e1], e3, hrot _ ▸ e2, e4⟩
  · obtain ⟨u, h1, h2, h3, -⟩ := C27_rz Real.pi
    obtain ⟨v, e1, e2, e3, e4⟩ := rename_holds h2 h3 "Z"
    exact ⟨v, by unfold sigmaz; rw [h1, ok_bind, e1], e3, hrot _ ▸ e2, e4⟩

theorem hadamard_product : Gate.rot Gate.Y (Real.pi / 2) * Gate.rot Gate.Z Real.pi = (-I) • Gate.H := by
  have hs : ((Real.sqrt 2 : ℝ) : ℂ)⁻¹ = (Real.sqrt 2 : ℝ) / 2 := by
    have : (Real.sqrt 2)⁻¹ = Real.sqrt 2 / 2 := by
      rw [inv_eq_one_div, div_eq_div_iff (by positivity) (by norm_num)]
      rw [Real.mul_self_sqrt (by norm_num)]; norm_num
    rw [← ofReal_inv, this]; push_cast; rfl
  have hc : Real.pi / 2 / 2 = Real.pi / 4 := by ring
  unfold Gate.rot Gate.H
  rw [hc, Real.cos_pi_div_four, Real.sin_pi_div_four, Real.cos_pi_div_two, Real.sin_pi_div_two]
  ext i j
  fin_cases i <;> fin_cases j <;>
    simp [Matrix.mul_apply, Gate.X, Gate.Y, Gate.Z, hs]
  · ring
  · linear_combination (I * (Real.sqrt 2 : ℂ) / 2) * I_sq
  · linear_combination (I * (Real.sqrt 2 : ℂ) / 2) * I_sq
  · ring

/-- `h` is the Hadamard gate up to the global phase `-i`. -/
theorem C27_hadamard : ∃ u, h 0 = .ok u ∧ u.Exact 2 ∧ u.Holds ((-I) • Gate.H) ∧ u.operationName = "H" := by
  obtain ⟨u, h1, h2, h3, -⟩ := C27_ry (Real.pi / 2)
  obtain ⟨v, e1, e2, e3, -⟩ := C27_rz Real.pi
  have hm := Unitary.leftMultiply_eq e3 h3
  have hex : (Unitary.plain (u.matrix.matmul v.matrix)).Exact 2 := by
    refine ⟨by norm_num, h3.rows, e3.cols, ?_⟩
    change (u.matrix.matmul v.matrix).toMatrix 2 ∈ _
    rw [Arr.toMatrix_matmul h3.cols]
    exact mul_mem h3.2.2.2 e3.2.2.2
  have hho : (Unitary.plain (u.matrix.matmul v.matrix)).Holds ((-I) • Gate.H) := by
    refine ⟨h3.rows, e3.cols, ?_⟩
    change (u.matrix.matmul v.matrix).toMatrix 2 = _
    rw [Arr.toMatrix_matmul h3.cols, h2.2.2, e2.2.2]
    exact hadamard_product
  obtain ⟨x, f1, f2, f3, f4⟩ := rename_holds hho hex "H"
  exact ⟨x, by unfold h; rw [h1, ok_bind, e1, ok_bind, hm, ok_bind]; exact f1, f3, f2, f4⟩

theorem rotZ_T : Gate.rot Gate.Z (Real.pi / 4) = exp (((-(Real.pi / 8) : ℝ) : ℂ) * I) • Gate.T := by
  rw [← (rzMatrix_is _).2.2]
  ext i j
  fin_cases i <;> fin_cases j <;> simp [Arr.toMatrix, rzMatrix, Arr.ofRows, Gate.T, ← exp_add]
  · congr 1; ring
  · congr 1; ring

/-- `t` is the T gate up to a global phase. -/
theorem C27_t : ∃ u, t 0 = .ok u ∧ u.Exact 2 ∧ SamePhase (u.matrix.toMatrix 2) Gate.T ∧
    u.operationName = "T" := by
  obtain ⟨u, h1, h2, h3, -⟩ := C27_rz (Real.pi / 4)
  obtain ⟨v, e1, e2, e3, e4⟩ := rename_holds h2 h3 "T"
  exact ⟨v, by unfold t; rw [h1, ok_bind, e1], e3, ⟨exp (((-(Real.pi / 8) : ℝ) : ℂ) * I),
    norm_exp_ofReal_mul_I _, by rw [e2.2.2]; exact rotZ_T⟩, e4⟩

/-- `cnot` is the controlled not up to a global phase. -/
theorem C27_cnot : ∃ u, cnot 0 = .ok u ∧ u.Exact 4 ∧ SamePhase (u.matrix.toMatrix 4) Gate.CNOT ∧
    u.operationName = "CNOT" := by
  obtain ⟨hr, hc, hm⟩ := cnotMatrix_is
  have hU : cnotMatrix.toMatrix 4 ∈ unitaryGroup (Fin 4) ℂ := hm ▸ Gate.CNOT_unitary
  obtain ⟨u, h1, h2, h3, h4⟩ := Unitary.new_phase (by norm_num) hr hc hU (some "CNOT") none
  exact ⟨u, h1, h2, hm ▸ h3, h4⟩

/-- `ccnot` is the Toffoli gate up to a global phase. -/
theorem C27_ccnot : ∃ u, ccnot 0 = .ok u ∧ u.Exact 8 ∧ SamePhase (u.matrix.toMatrix 8) Gate.CCNOT ∧
    u.operationName = "CCNOT" := by
  obtain ⟨hr, hc, hm⟩ := ccnotMatrix_is
  have hU : ccnotMatrix.toMatrix 8 ∈ unitaryGroup (Fin 8) ℂ := hm ▸ Gate.CCNOT_unitary
  obtain ⟨u, h1, h2, h3, h4⟩ := Unitary.new_phase (by norm_num) hr hc hU (some "CCNOT") none
  exact ⟨u, h1, h2, hm ▸ h3, h4⟩

/-- `qecc_phase_flip` is the decoder of the three-qubit phase-flip code: Hadamard gates on all qubits, controlled
nots from the last qubit to the others, Toffoli onto the last qubit; up to a global phase. -/
theorem C27_qecc : ∃ u, qeccPhaseFlip 0 = .ok u ∧ u.Exact 8 ∧ SamePhase (u.matrix.toMatrix 8) Gate.phaseFlip ∧
    u.operationName = "QECC" := by
  have hm : qeccMatrix.toMatrix 8 = Gate.phaseFlip := qeccMatrix_eq
  have hU : qeccMatrix.toMatrix 8 ∈ unitaryGroup (Fin 8) ℂ := hm ▸ Gate.phaseFlip_unitary
  obtain ⟨u, h1, h2, h3, h4⟩ := Unitary.new_phase (d := 8) (by norm_num) rfl rfl hU (some "QECC") none
  exact ⟨u, h1, h2, hm ▸ h3, h4⟩

/-- The parameterised gates accept exactly angles in `[0, 2π]` and instantiate to the plain gates:
`rotation_xy` to `rphi`, `xx` to `xx`, and `rotation_xyz` to the product `Rz(α) Ry(β) Rz(γ)`. -/
theorem C27_parameterized :
    (∃ pu, ParamDefinitions.rotationXY 0 = .ok pu ∧ pu.dimension = 2 ∧
      ∀ θ φ, θ ∈ Set.Icc 0 (2 * Real.pi) → φ ∈ Set.Icc 0 (2 * Real.pi) →
        ∃ u, pu.asUnitary 0 [θ, φ] = .ok u ∧ u.Exact 2 ∧
          u.Holds (Gate.rot ((Real.cos φ : ℂ) • Gate.X + (Real.sin φ : ℂ) • Gate.Y) θ) ∧
          u.operationName = "Rxy" ∧ u.parameterDict = [("theta", (θ, true)), ("phi", (φ, true))]) ∧
    (∃ pu, ParamDefinitions.rotationXYZ 0 = .ok pu ∧ pu.dimension = 2 ∧
      ∀ α β γ, α ∈ Set.Icc 0 (2 * Real.pi) → β ∈ Set.Icc 0 (2 * Real.pi) → γ ∈ Set.Icc 0 (2 * Real.pi) →
        ∃ u, pu.asUnitary 0 [α, β, γ] = .ok u ∧ u.Exact 2 ∧
          u.Holds (Gate.rot Gate.Z α * Gate.rot Gate.Y β * Gate.rot Gate.Z γ) ∧ u.operationName = "Rxyz" ∧
          u.parameterDict = [("alpha", (α, true)), ("beta", (β, true)), ("gamma", (γ, true))]) ∧
    (∃ pu, ParamDefinitions.xx 0 = .ok pu ∧ pu.dimension = 4 ∧
      ∀ θ, θ ∈ Set.Icc 0 (2 * Real.pi) →
        ∃ u, pu.asUnitary 0 [θ] = .ok u ∧ u.Exact 4 ∧ u.Holds (Gate.rot Gate.XX (2 * θ)) ∧
          u.operationName = "XX" ∧ u.parameterDict = [("theta", (θ, true))]) := by
  refine ⟨⟨_, ParamDefinitions.rotationXY_eq 0, rfl, ?_⟩, ⟨_, ParamDefinitions.rotationXYZ_eq 0, rfl, ?_⟩,
    ⟨_, ParamDefinitions.xx_eq 0, rfl, ?_⟩⟩
  · intro θ φ hθ hφ
    rw [asUnitary_eq rfl (by
      intro pv hpv
      simp only [List.zip_cons_cons, List.zip_nil_right, List.mem_cons, List.not_mem_nil, or_false] at hpv
      rcases hpv with rfl | rfl
      · exact hθ
      · exact hφ)]
    obtain ⟨u, h1, h2, h3, -⟩ := C27_rphi θ φ
    obtain ⟨v, e1, e2, e3, e4, e5⟩ := Unitary.new_su_holds (by norm_num : 0 < 2) h2
      (h2.2.2 ▸ h3.2.2.2) (some "Rxy") (some [("theta", (θ, true)), ("phi", (φ, true))])
    refine ⟨v, ?_, e3, e2, e4, e5⟩
    simp only [h1, ok_bind, pure_except]
    exact e1
  · intro α β γ hα hβ hγ
    rw [asUnitary_eq rfl (by
      intro pv hpv
      simp only [List.zip_cons_cons, List.zip_nil_right, List.mem_cons, List.not_mem_nil, or_false] at hpv
      rcases hpv with rfl | rfl | rfl
      · exact hα
      · exact hβ
      · exact hγ)]
    obtain ⟨v, e1, e2, e3, e4, e5⟩ := Unitary.new_su_holds (by norm_num : 0 < 2) (rotationXYZMatrix_is α β γ)
      (mul_mem (mul_mem (Gate.rot_Z_su α) (Gate.rot_Y_su β)) (Gate.rot_Z_su γ)) (some "Rxyz")
      (some [("alpha", (α, true)), ("beta", (β, true)), ("gamma", (γ, true))])
    exact ⟨v, by simp only [ok_bind]; exact e1, e3, e2, e4, e5⟩
  · intro θ hθ
    rw [asUnitary_eq rfl (by
      intro pv hpv
      simp only [List.zip_cons_cons, List.zip_nil_right, List.mem_cons, List.not_mem_nil, or_false] at hpv
      subst hpv
      exact hθ)]
    obtain ⟨u, h1, h2, h3, -⟩ := C27_xx θ
    obtain ⟨v, e1, e2, e3, e4, e5⟩ := Unitary.new_su_holds (by norm_num : 0 < 4) h2
      (h2.2.2 ▸ h3.2.2.2) (some "XX") (some [("theta", (θ, true))])
    refine ⟨v, ?_, e3, e2, e4, e5⟩
    simp only [h1, ok_bind, pure_except]
    exact e1

end Stoq
