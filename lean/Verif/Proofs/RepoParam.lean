import Verif.Proofs.RepoUnitary

/-! # `test_gms` and the tests of `ParameterizedUnitary` pass -/

namespace Stoq

open Matrix UnitaryDefinitions Tests

open scoped Matrix.Norms.L2Operator

variable {τ : Arith} {n : ℕ} {δ : ℝ}

theorem Tests.GMS_quarter (n : ℕ) : Gate.GMS n (Real.pi / 4) ^ 4 = ((-1 : ℂ) ^ n.choose 2) • 1 := by
  obtain ⟨u, h1, h2⟩ := C28_quarter n
  obtain ⟨v, h3, h4, -⟩ := C28_gms n (Real.pi / 4)
  rw [h1] at h3
  cases h3
  rw [← h2, h4.2.2]

theorem Tests.GMS_mem (n : ℕ) (θ : ℝ) : Gate.GMS n θ ∈ unitaryGroup (Fin (2 ^ n)) ℂ := by
  obtain ⟨u, -, h1, h2, -⟩ := C28_gms n θ
  exact h1.2.2 ▸ (mem_specialUnitaryGroup_iff.mp h2.2.2.2).1

/-- A round of `test_gms` passes for every accuracy at which the error of the gate is at most `1e-9`. -/
theorem Tests.pass_gmsOnce (hb : Budget n τ δ (12 * δ) (n.choose 2 + 1)) (he : driftErr n δ (12 * δ) (n.choose 2 + 1) ≤ 1e-9)
    (hc : 3 * 2 ^ n * δ ≤ 6e-11) : gmsOnce τ n = .ok () := by
  have hpi : |Real.pi / 4| ≤ 100 := by
    rw [abs_of_pos (by positivity)]; linarith [Real.pi_le_four]
  have hd : 0 < 2 ^ n := Nat.two_pow_pos n
  have hτ := hb.tau
  have hc' : 3 * ((2 ^ n : ℕ) : ℝ) * δ ≤ 6e-11 := by rwa [cast_two_pow]
  have hc0 : 0 ≤ 3 * ((2 ^ n : ℕ) : ℝ) * δ := by have := hτ.t_nonneg; positivity
  have hV := GMS_mem n (Real.pi / 4)
  obtain ⟨u, e, hu, -⟩ := C62_gms hpi hb
  have hu := hu.mono he
  obtain ⟨a, e1, ha⟩ := (C56_multiply hd hτ hu hu hV hV (by unfold driftLimit; norm_num at hc' ⊢; linarith)).1
  have ha := ha.mono (ε' := 2.07e-9) (by norm_num at hc' ⊢; linarith)
  obtain ⟨b, e2, hb2⟩ := (C56_multiply hd hτ ha hu (mul_mem hV hV) hV (by unfold driftLimit; norm_num at hc' ⊢; linarith)).1
  have hb2 := hb2.mono (ε' := 3.14e-9) (by norm_num at hc' ⊢; linarith)
  obtain ⟨c, e3, hcc⟩ := (C56_multiply hd hτ hb2 hu (mul_mem hV (mul_mem hV hV)) hV
    (by unfold driftLimit; norm_num at hc' ⊢; linarith)).1
  have hcc := hcc.mono (ε' := 4.21e-9) (by norm_num at hc' ⊢; linarith)
  obtain ⟨i, e4, hi⟩ := Unitary.identity_near hd hτ hb.tau1 (some "I")
  have hW := mul_mem hV (mul_mem hV (mul_mem hV hV))
  obtain ⟨x, e5, hx⟩ := C56_distance hd hτ hcc hi hW (one_mem _) (by unfold driftLimit; norm_num at hc' ⊢; linarith) (by norm_num)
  rw [(overlap_eq_one_iff hd hW (one_mem _)).mpr ⟨(-1 : ℂ) ^ n.choose 2, by simp, by
    rw [← GMS_quarter n]; simp only [pow_succ, pow_zero, one_mul, mul_assoc]⟩] at hx
  have e4' : Unitary.identity τ u.getDimension = .ok i := by rw [hu.dim]; exact e4
  simp only [gmsOnce, e, e1, e2, e3, e4', ok_bind, assertIs_ok, close_none e5 true (iff_of_true rfl (by
    simp only [sub_self, sub_zero] at hx
    norm_num at hx hc' ⊢; linarith))]

theorem Tests.pass_gmsOnce_exact (n : ℕ) : gmsOnce 0 n = .ok () := by
  have h0 : driftErr n 0 (12 * 0) (n.choose 2 + 1) = 0 := by simp [driftErr, stepErr]
  exact pass_gmsOnce (δ := 0) ⟨Arith.exact_accurate le_rfl _, by norm_num, by norm_num, by rw [h0]; unfold driftLimit; norm_num⟩
    (by rw [h0]; norm_num) (by norm_num)

theorem Tests.fine_budget (hτ : Fine τ) : Budget 3 τ 1.25e-12 (12 * 1.25e-12) 4 ∧
    driftErr 3 1.25e-12 (12 * 1.25e-12) 4 ≤ 1e-9 := by
  have : driftErr 3 1.25e-12 (12 * 1.25e-12) 4 ≤ 1e-9 := by unfold driftErr stepErr; norm_num
  exact ⟨⟨hτ.mono (by norm_num), by norm_num, by norm_num, this.trans (by unfold driftLimit; norm_num)⟩, this⟩

theorem Tests.pass_gmsOnce_three (hτ : Fine τ) : gmsOnce τ 3 = .ok () :=
  pass_gmsOnce (δ := 1.25e-12) (fine_budget hτ).1 (fine_budget hτ).2 (by norm_num)

/-! ## `ParameterizedUnitary` -/

/-- A family of the library evaluated at values in range. -/
theorem NearFamily.gives {pu : ParamUnitary} {k l : ℕ} {V : List ℝ → Matrix (Fin (2 ^ k)) (Fin (2 ^ k)) ℂ} {ε : ℝ}
    (h : NearFamily pu k V τ δ ε) (hk : 2 ^ k ≤ 16) (hε : ε ≤ l * 1e-10) {values : List ℝ} (hv : InRange pu.parameters values) :
    Gives (pu.asUnitary τ values) (V values) l pu.operationName (buildDict (pu.parameters.zip values) []) := by
  obtain ⟨a, -, -, -, hV, -⟩ := h.matrix values hv
  exact NearGate.gives (h.asUnitary values hv) (Nat.two_pow_pos k) hk hV hε

theorem Tests.rotationParameters_eq : rotationParameters = .ok [⟨"alpha", 0, 2 * Real.pi, true⟩, ⟨"beta", 0, 2 * Real.pi, true⟩,
    ⟨"gamma", 0, 2 * Real.pi, true⟩] := by
  unfold rotationParameters
  have h : ∀ s : String, s ≠ "" → Parameter.new s 0 (2 * Real.pi) true = .ok ⟨s, 0, 2 * Real.pi, true⟩ :=
    fun s hs => ParamDefinitions.angle_eq hs
  rw [h _ (by decide), h _ (by decide), h _ (by decide)]
  rfl

theorem Tests.rotation_gives (hτ : Fine τ) {pu : ParamUnitary} (hpu : ∃ ps, rotationParameters = .ok ps ∧
    ParamUnitary.new 2 (rotationMatrix τ) ps "R" = .ok pu) {α β γ : ℝ}
    (hα : 0 ≤ α ∧ α ≤ 2 * Real.pi) (hβ : 0 ≤ β ∧ β ≤ 2 * Real.pi) (hγ : 0 ≤ γ ∧ γ ≤ 2 * Real.pi) :
    Gives (pu.asUnitary τ [α, β, γ]) (Gate.rot Gate.Z α * Gate.rot Gate.Y β * Gate.rot Gate.Z γ) 1 "R"
      [("alpha", (α, true)), ("beta", (β, true)), ("gamma", (γ, true))] := by
  obtain ⟨ps, h1, h2⟩ := hpu
  rw [rotationParameters_eq] at h1
  cases h1
  unfold ParamUnitary.new at h2
  rw [assertE_of (by norm_num), ok_bind, pure_except] at h2
  cases h2
  rw [asUnitary_eq rfl (by
    intro pv hpv
    simp only [List.zip_cons_cons, List.zip_nil_right, List.mem_cons, List.not_mem_nil, or_false] at hpv
    rcases hpv with rfl | rfl | rfl
    exacts [hα, hβ, hγ])]
  have hsu := fun θ => (mem_specialUnitaryGroup_iff.mp (Gate.rot_Z_su θ)).1
  obtain ⟨u, e, hu, e1, e2, e3, -⟩ := gate_gives (τ := τ) hτ (by norm_num : 0 < 2) (by norm_num) (rotationXYZMatrix_is α β γ)
    (mul_mem (mul_mem (hsu α) (mem_specialUnitaryGroup_iff.mp (Gate.rot_Y_su β)).1) (hsu γ)) "test" (args := [α, β, γ])
    (by
      intro x hx
      simp only [List.mem_cons, List.not_mem_nil, or_false] at hx
      rcases hx with rfl | rfl | rfl
      exacts [angle_le hα, angle_le hβ, angle_le hγ]) (some "R")
    (some (buildDict [((⟨"alpha", 0, 2 * Real.pi, true⟩ : Parameter), α), (⟨"beta", 0, 2 * Real.pi, true⟩, β),
      (⟨"gamma", 0, 2 * Real.pi, true⟩, γ)] []))
  exact ⟨u, e, hu, e1, e2.trans (by simp [buildDict, dictSet]), e3⟩

theorem Tests.randomValues_mem {ps : List Parameter} (h : ∀ p ∈ ps, p.minValue ≤ p.maxValue) (r : Rng) :
    ∃ vs r', randomValues ps r = (.ok vs, r') ∧ InRange ps vs := by
  induction ps generalizing r with
  | nil => exact ⟨[], r, rfl, rfl, by simp⟩
  | cons p ps ih =>
    obtain ⟨v, h1, h2⟩ := randomValue_mem (h p List.mem_cons_self) r
    obtain ⟨vs, r', h3, h4, h5⟩ := ih (fun q hq => h q (List.mem_cons_of_mem _ hq)) { r with upos := r.upos + 1 }
    refine ⟨v :: vs, r', ?_, by simp [h4], ?_⟩
    · rw [randomValues, PyM.bind_of_ok h1, PyM.bind_of_ok h3]; rfl
    · intro pv hpv
      rw [List.zip_cons_cons, List.mem_cons] at hpv
      rcases hpv with rfl | hpv
      exacts [h2, h5 pv hpv]

theorem Tests.pass_parameterizedRotation (hτ : Fine τ) (fmt : ℕ → ℝ → String) (r : Rng) :
    (parameterizedRotation τ fmt r).1 = .ok () := by
  obtain ⟨i, ei, hi⟩ := identity_gives hτ (by norm_num : 0 < 2) (by norm_num)
  have h2pi : (0 : ℝ) ≤ 2 * Real.pi := by positivity
  obtain ⟨pu, hpu⟩ : ∃ pu, ParamUnitary.new 2 (rotationMatrix τ) [⟨"alpha", 0, 2 * Real.pi, true⟩,
      ⟨"beta", 0, 2 * Real.pi, true⟩, ⟨"gamma", 0, 2 * Real.pi, true⟩] "R" = .ok pu := by
    unfold ParamUnitary.new
    rw [assertE_of (by norm_num), ok_bind, pure_except]
    exact ⟨_, rfl⟩
  have hg := fun {α β γ} => rotation_gives hτ ⟨_, rotationParameters_eq, hpu⟩ (α := α) (β := β) (γ := γ)
  obtain ⟨z, e1, hz, z1, -⟩ := hg ⟨le_rfl, h2pi⟩ ⟨le_rfl, h2pi⟩ ⟨le_rfl, h2pi⟩
  have w1 := within_name fmt z
  rw [z1] at w1
  unfold parameterizedRotation
  rw [PyM.bind_of_ok (PyM.lift_eq_ok_iff.mpr ⟨rotationParameters_eq, rfl⟩),
    PyM.bind_of_ok (PyM.lift_eq_ok_iff.mpr ⟨hpu, rfl⟩), PyM.bind_of_ok (PyM.lift_eq_ok_iff.mpr ⟨e1, rfl⟩),
    PyM.bind_of_ok (PyM.lift_eq_ok_iff.mpr ⟨by
      rw [ei, ok_bind, hz.close hτ hi (by norm_num) (by norm_num) (same_of_eq (by simp)), assertIs_ok], rfl⟩),
    PyM.bind_of_ok (PyM.assert_of w1 _), PyM.bind_of_ok (PyM.assert_of (by simp) _)]
  obtain ⟨vs, r', hv, hlen, hin⟩ := randomValues_mem (ps := [⟨"alpha", 0, 2 * Real.pi, true⟩,
    ⟨"beta", 0, 2 * Real.pi, true⟩, ⟨"gamma", 0, 2 * Real.pi, true⟩]) (by simp [h2pi]) r
  obtain ⟨a, b, c, rfl⟩ := List.length_eq_three.mp hlen
  have a2 := hin (⟨"alpha", 0, 2 * Real.pi, true⟩, a) (by simp)
  have b2 := hin (⟨"beta", 0, 2 * Real.pi, true⟩, b) (by simp)
  have c2 := hin (⟨"gamma", 0, 2 * Real.pi, true⟩, c) (by simp)
  obtain ⟨u, e2, hu, u1, -⟩ := hg (α := a) (β := b) (γ := c) a2 b2 c2
  obtain ⟨v, e3, hv', -⟩ := hu.inverse hτ (by norm_num)
  obtain ⟨w, e4, hw⟩ := hu.mul hτ hv' (by norm_num)
  have w2 := within_name fmt u
  rw [u1] at w2
  rw [PyM.bind_of_ok hv, PyM.bind_of_ok (PyM.assert_of (fun pv hpv => (hin pv hpv : pv.1.IsValid pv.2)) _),
    PyM.bind_of_ok (PyM.lift_eq_ok_iff.mpr ⟨e2, rfl⟩),
    PyM.bind_of_ok (PyM.assert_of w2 _), PyM.bind_of_ok (PyM.assert_of (by simp) _), PyM.lift_apply]
  simp only [e3, e4, ei, ok_bind, hw.close hτ hi (by norm_num) (by norm_num) (same_of_eq (star_mul_self hu.mem)), assertIs_ok]

theorem Tests.GMS_two (θ : ℝ) : Gate.GMS 2 θ = Gate.rot Gate.XX (2 * θ) := by
  obtain ⟨u, x, h1, h2, h3⟩ := C28_two θ
  obtain ⟨v, h4, h5, -⟩ := C28_gms 2 θ
  obtain ⟨y, h6, h7, -⟩ := C27_xx θ
  rw [h1] at h4
  cases h4
  rw [h2] at h6
  cases h6
  rw [← h5.2.2, ← h7.2.2]
  exact h3.2.2

theorem Tests.fine_budget_two (hτ : Fine τ) : Budget 2 τ 1.25e-12 (12 * 1.25e-12) 3 ∧
    driftErr 2 1.25e-12 (12 * 1.25e-12) 3 ≤ 3e-10 := by
  have : driftErr 2 1.25e-12 (12 * 1.25e-12) 3 ≤ 3e-10 := by unfold driftErr stepErr; norm_num
  exact ⟨⟨hτ.mono (by norm_num), by norm_num, by norm_num, this.trans (by unfold driftLimit; norm_num)⟩, this⟩

theorem Tests.pass_parameterizedClassmethods (hτ : Fine τ) : parameterizedClassmethods τ = .ok () := by
  obtain ⟨i, ei, hi⟩ := identity_gives hτ (by norm_num : 0 < 2) (by norm_num)
  obtain ⟨j, ej, hj⟩ := identity_gives hτ (by norm_num : 0 < 4) (by norm_num)
  obtain ⟨⟨xy, p1, f1⟩, ⟨xyz, p2, f2⟩, ⟨xx, p3, f3⟩⟩ := C62_parameterized (hτ.mono (by norm_num : 4 ≤ 16))
    (by unfold driftLimit; norm_num)
  obtain ⟨gm, p4, f4⟩ := C62_parameterized_gms (n := 2) (fine_budget_two hτ).1
  have hxy := p1
  rw [ParamDefinitions.rotationXY_eq] at hxy
  have hxyz := p2
  rw [ParamDefinitions.rotationXYZ_eq] at hxyz
  have hxx := p3
  rw [ParamDefinitions.xx_eq] at hxx
  have hgm := p4
  rw [ParamDefinitions.gms_eq] at hgm
  cases hxy; cases hxyz; cases hxx; cases hgm
  have hpi := Real.pi_pos
  have h0 : (0 : ℝ) ≤ 2 * Real.pi := by positivity
  obtain ⟨a, e1, ha, -⟩ := NearFamily.gives (l := 1) f1 (by norm_num) (by norm_num) (values := [0, 0]) ⟨rfl, by simp [h0]⟩
  obtain ⟨b, e2, hb, -⟩ := NearFamily.gives (l := 1) f2 (by norm_num) (by norm_num) (values := [0, 0, 0]) ⟨rfl, by simp [h0]⟩
  obtain ⟨c, e3, hc, -, c1, -⟩ := NearFamily.gives (l := 1) f3 (by norm_num) (by norm_num) (values := [2 * Real.pi]) ⟨rfl, by simp [h0]⟩
  have hr : (0 : ℝ) ≤ Real.pi / 3 ∧ Real.pi / 3 ≤ 2 * Real.pi := ⟨by positivity, by linarith⟩
  obtain ⟨d, e4, hd, -⟩ := NearFamily.gives (l := 1) f3 (by norm_num) (by norm_num) (values := [Real.pi / 3]) ⟨rfl, by simpa using hr⟩
  obtain ⟨g, e5, hg, -, g1, -⟩ := NearFamily.gives (l := 3) f4 (by norm_num) ((fine_budget_two hτ).2.trans (by norm_num))
    (values := [Real.pi / 3]) ⟨rfl, by simpa using hr⟩
  have hfull : Gate.rot Gate.XX (2 * (2 * Real.pi)) = 1 := by
    unfold Gate.rot
    rw [show 2 * (2 * Real.pi) / 2 = 2 * Real.pi by ring]
    simp
  have k1 : c.getParameterValue "theta" = some (2 * Real.pi, true) := by
    simp [Unitary.getParameterValue, c1, buildDict, dictSet]
  have k2 : g.getParameterValue "theta" = some (Real.pi / 3, true) := by
    simp [Unitary.getParameterValue, g1, buildDict, dictSet]
  simp only [parameterizedClassmethods, p1, p2, p3, p4, ok_bind, e1, e2, e3, e4, e5, ei, firstName, k1, k2, assertE_true]
  have ej2 : Unitary.identity τ 4 = .ok j := ej
  simp only [ej2, ok_bind,
    ha.close hτ hi (by norm_num) (by norm_num) (same_of_eq (by simp)),
    hb.close hτ hi (by norm_num) (by norm_num) (same_of_eq (by simp)),
    hc.close hτ hj (by norm_num) (by norm_num) (same_of_eq hfull),
    hg.close hτ hd (by norm_num) (by norm_num) (same_of_eq (GMS_two _)), assertIs_ok]

theorem Tests.pass_parameterizedTimeEvolution (hτ : Fine τ) : parameterizedTimeEvolution τ = .ok () := by
  obtain ⟨i, ei, hi⟩ := identity_gives hτ (by norm_num : 0 < 2) (by norm_num)
  have hX : (Arr.ofRows [[0, 1], [1, 0]]).Is Gate.X := xArr_is.1
  have hn : ‖Gate.X‖ ≤ 1 := (norm_unitary (by norm_num) X_mem).le
  obtain ⟨pu, p1, f1, -⟩ := C62_parameterized_evolution (k := 1) (hτ.mono (by norm_num : 2 ^ 1 ≤ 16))
    (by unfold driftLimit; norm_num) hX Gate.X_ct (tMin := -1.234) (tMax := 1.234) (by norm_num)
    (by norm_num [abs_of_pos]; linarith) (by norm_num [abs_of_pos]; linarith) ""
  have hpu := p1
  unfold ParamDefinitions.timeEvolution Parameter.new ParamUnitary.new at hpu
  rw [assertE_of (Arr.IsHermitianClose.of_is hX Gate.X_ct), ok_bind, assertE_of (by norm_num), ok_bind,
    assertE_of (by decide), ok_bind, ok_bind, pure_except, ok_bind,
    assertE_of (by simp [Arr.ofRows]), ok_bind, pure_except] at hpu
  cases hpu
  obtain ⟨a, e1, ha, -⟩ := NearFamily.gives (l := 1) f1 (by norm_num) (by norm_num) (values := [0]) ⟨rfl, by norm_num⟩
  obtain ⟨b, e2, hb, -, b1, -⟩ := NearFamily.gives (l := 1) f1 (by norm_num) (by norm_num) (values := [1.234 / 2])
    ⟨rfl, by norm_num⟩
  obtain ⟨c, e3, hc, -, c1, -⟩ := NearFamily.gives (l := 1) f1 (by norm_num) (by norm_num) (values := [-(1.234 / 2)])
    ⟨rfl, by norm_num⟩
  obtain ⟨d, e4, hd, -⟩ := hc.inverse hτ (by norm_num)
  have k1 : b.getParameterValue "t" = some (1.234 / 2, false) := by
    simp [Unitary.getParameterValue, b1, buildDict, dictSet]
  have k2 : c.getParameterValue "t" = some (-(1.234 / 2), false) := by
    simp [Unitary.getParameterValue, c1, buildDict, dictSet]
  simp only [parameterizedTimeEvolution, p1, ok_bind, e1, e2, e3, e4, firstName, k1, k2, assertE_true]
  have ei2 : Unitary.identity τ (Arr.ofRows [[0, 1], [1, 0]]).rows = .ok i := ei
  simp only [ei2, ok_bind, ha.close hτ hi (by norm_num) (by norm_num) (same_of_eq (evolution_zero _)),
    hb.close hτ hd (by norm_num) (by norm_num) (same_of_eq (by
      show evolution Gate.X (1.234 / 2) = (evolution Gate.X (-(1.234 / 2)))ᴴ
      rw [evolution_ct Gate.X_ct, neg_neg])), assertIs_ok]
  rw [param_evolution_negative (by norm_num), raises_assertion, ok_bind]
  unfold ParamUnitary.asUnitary
  rw [raiseUnless_of (by simp), ok_bind, assertE_of_not (by norm_num [Parameter.IsValid])]
  rfl

end Stoq
