import Verif.Proofs.RepoTests

/-! # The tests of `Unitary` pass -/

namespace Stoq

open Matrix UnitaryDefinitions Tests

open scoped Matrix.Norms.L2Operator

variable {τ : Arith}

theorem Tests.pass_unitaryDefault (hτ : Fine τ) : unitaryDefault τ = .ok () := by
  obtain ⟨u, e, hu⟩ := default_gives hτ (by norm_num : 0 < 4) (by norm_num)
  simp only [unitaryDefault, e, ok_bind, hu.dim, assertE_true, hu.closeArr hτ (by norm_num) ⟨1, by simp, by simp⟩, assertIs_ok]

theorem Tests.pass_nonSquareMatrix (τ : Arith) : nonSquareMatrix τ = .ok () := by
  unfold nonSquareMatrix Unitary.new
  rw [assertE_of (by norm_num), ok_bind]
  simp only [Option.getD_some]
  rw [assertE_of_not (by simp [Arr.clean, Arr.ofRows])]
  rfl

theorem Tests.pass_mismatchedDimension (τ : Arith) : mismatchedDimension τ = .ok () := by
  unfold mismatchedDimension Unitary.new
  rw [assertE_of (by norm_num), ok_bind]
  simp only [Option.getD_some]
  rw [assertE_of_not (by simp [Arr.clean, Arr.identity])]
  rfl

theorem Tests.phases_is : phases.Is !![Complex.exp (Complex.I * Real.pi / 4), 0; 0, Complex.I] ∧
    (!![Complex.exp (Complex.I * Real.pi / 4), 0; 0, Complex.I] : Matrix (Fin 2) (Fin 2) ℂ) ∈ unitaryGroup (Fin 2) ℂ := by
  refine ⟨⟨rfl, rfl, ?_⟩, ?_⟩
  · ext i j; fin_cases i <;> fin_cases j <;> simp [Arr.toMatrix, phases, Arr.ofRows]
  · have h : Complex.exp (Complex.I * Real.pi / 4) * (starRingEnd ℂ) (Complex.exp (Complex.I * Real.pi / 4)) = 1 := by
      rw [Complex.mul_conj, Complex.normSq_eq_norm_sq,
        show (Complex.I * Real.pi / 4 : ℂ) = ((Real.pi / 4 : ℝ) : ℂ) * Complex.I by push_cast; ring,
        Complex.norm_exp_ofReal_mul_I]
      norm_num
    rw [mem_unitaryGroup_iff]
    ext i j
    fin_cases i <;> fin_cases j <;> simp [Matrix.mul_apply, Fin.sum_univ_two, star_eq_conjTranspose, h]

theorem Tests.same_of_eq {d : ℕ} {V W : Matrix (Fin d) (Fin d) ℂ} (h : V = W) : SamePhase V W := ⟨1, by simp, by simp [h]⟩

theorem Tests.star_mul_self {d : ℕ} {V : Matrix (Fin d) (Fin d) ℂ} (h : V ∈ unitaryGroup (Fin d) ℂ) : Vᴴ * V = 1 :=
  mem_unitaryGroup_iff'.mp h

theorem Tests.self_mul_star {d : ℕ} {V : Matrix (Fin d) (Fin d) ℂ} (h : V ∈ unitaryGroup (Fin d) ℂ) : V * Vᴴ = 1 :=
  mem_unitaryGroup_iff.mp h

theorem Tests.pass_inverseFixed (hτ : Fine τ) (fmt : ℕ → ℝ → String) : inverseFixed τ fmt = .ok () := by
  obtain ⟨u, e, hu, u1, u2, u3, u4⟩ := gate_gives hτ (by norm_num) (by norm_num) phases_is.1 phases_is.2 "test"
    (args := []) (by simp) (some "U") none
  obtain ⟨v, e1, hv, v1, v2, v3, v4⟩ := hu.inverse hτ (by norm_num)
  obtain ⟨a, e2, ha⟩ := hu.mul hτ hv (by norm_num)
  obtain ⟨b, e3, hb⟩ := hu.rmul hτ hv (by norm_num)
  obtain ⟨w, e4, hw, w1, w2, w3, w4⟩ := hv.inverse hτ (by norm_num)
  have d1 : v.getDisplayName fmt = "U†" := by
    unfold Unitary.getDisplayName
    rw [v1, v2, v3, v4, u1, u2, u3, u4]
    simp
  have d2 : w.getDisplayName fmt = "U" := by
    unfold Unitary.getDisplayName
    rw [w1, w2, w3, w4, v1, v2, v3, v4, u1, u2, u3, u4]
    simp
  simp only [inverseFixed, e, e1, e2, e3, e4, ok_bind, assertE_true, assertIs_ok, d1, d2,
    ha.closeArr hτ (by norm_num) (same_of_eq (star_mul_self hu.mem)),
    hb.closeArr hτ (by norm_num) (same_of_eq (self_mul_star hu.mem)),
    hu.close hτ hw (by norm_num) (by norm_num) (same_of_eq (conjTranspose_conjTranspose _).symm)]

/-- The constructor on a matrix that is close to a unitary matrix. -/
theorem Tests.sample_gives {d : ℕ} {V : Matrix (Fin d) (Fin d) ℂ} (hτ : Fine τ) (hd : 0 < d) (hd16 : d ≤ 16) {a : Arr}
    (hr : a.rows = d) (hc : a.cols = d) (hV : V ∈ unitaryGroup (Fin d) ℂ) (ha : NearMat (a.toMatrix d) V 4e-11) :
    ∃ u, Unitary.random τ d a = .ok u ∧ Rep u V 1 := by
  have hd' : (d : ℝ) ≤ 16 := by exact_mod_cast hd16
  obtain ⟨u, h1, h2, -⟩ := Unitary.new_near hd (hτ.mono hd16) hr hc hV ha (by unfold driftLimit; linarith) none none false []
  exact ⟨u, h1, ⟨hd, hd16, h2.mono (by push_cast; linarith), hV⟩⟩

theorem Tests.pass_inverseRandom (hτ : Fine τ) {sample : Arr} {V : Matrix (Fin 2) (Fin 2) ℂ} (hr : sample.rows = 2)
    (hc : sample.cols = 2) (hs : NearMat (sample.toMatrix 2) V 4e-11) (hV : V ∈ unitaryGroup (Fin 2) ℂ) :
    inverseRandom τ sample = .ok () := by
  obtain ⟨u, e, hu⟩ := sample_gives hτ (by norm_num) (by norm_num) hr hc hV hs
  obtain ⟨v, e1, hv, -⟩ := hu.inverse hτ (by norm_num)
  obtain ⟨a, e2, ha⟩ := hu.mul hτ hv (by norm_num)
  obtain ⟨b, e3, hb⟩ := hu.rmul hτ hv (by norm_num)
  simp only [inverseRandom, e, e1, e2, e3, ok_bind, assertIs_ok,
    ha.closeArr hτ (by norm_num) (same_of_eq (star_mul_self hu.mem)),
    hb.closeArr hτ (by norm_num) (same_of_eq (self_mul_star hu.mem))]

/-- `test_close_to` passes when the sample is neither too close to the T gate nor orthogonal to it. -/
theorem Tests.pass_closeTo (hτ : Fine τ) {sample : Arr} {V : Matrix (Fin 2) (Fin 2) ℂ} (hr : sample.rows = 2)
    (hc : sample.cols = 2) (hs : NearMat (sample.toMatrix 2) V 4e-11) (hV : V ∈ unitaryGroup (Fin 2) ℂ)
    (h1 : 1e-8 ≤ overlap V Gate.T) (h2 : overlap V Gate.T ≤ 0.9989999) : closeTo τ sample = .ok () := by
  obtain ⟨u, e, hu⟩ := sample_gives hτ (by norm_num) (by norm_num) hr hc hV hs
  obtain ⟨-, -, -, t, e1, ht, -⟩ := paulis_give hτ
  obtain ⟨x, e2, hx⟩ := hu.distance hτ hu (by norm_num) (by norm_num)
  obtain ⟨y, e3, hy⟩ := hu.distance hτ ht (by norm_num) (by norm_num)
  rw [(overlap_eq_one_iff hu.pos hV hV).mpr ⟨1, by simp, by simp⟩] at hx
  have hx := abs_le.mp hx
  have hy := abs_le.mp hy
  simp only [closeTo, e, e1, ok_bind, assertIs_ok,
    hu.close hτ hu (by norm_num) (by norm_num) ⟨1, by simp, by simp⟩,
    hu.far hτ ht (by norm_num) (by norm_num) (h2.trans (by norm_num)),
    close_some e2 (t := 0.999) true (iff_of_true rfl (by linarith)),
    close_some e3 (t := 0.999) false (iff_of_false (by simp) (by linarith)),
    close_some e3 (t := 0) true (iff_of_true rfl (by linarith))]

/-- `test_close_to` fails when the sample is close to the T gate. -/
theorem Tests.fail_closeTo (hτ : Fine τ) {sample : Arr} {V : Matrix (Fin 2) (Fin 2) ℂ} (hr : sample.rows = 2)
    (hc : sample.cols = 2) (hs : NearMat (sample.toMatrix 2) V 4e-11) (hV : V ∈ unitaryGroup (Fin 2) ℂ)
    (h : 0.9990001 ≤ overlap V Gate.T) : closeTo τ sample = .error .assertion := by
  obtain ⟨u, e, hu⟩ := sample_gives hτ (by norm_num) (by norm_num) hr hc hV hs
  obtain ⟨-, -, -, t, e1, ht, -⟩ := paulis_give hτ
  obtain ⟨x, e2, hx⟩ := hu.distance hτ hu (by norm_num) (by norm_num)
  obtain ⟨y, e3, hy⟩ := hu.distance hτ ht (by norm_num) (by norm_num)
  rw [(overlap_eq_one_iff hu.pos hV hV).mpr ⟨1, by simp, by simp⟩] at hx
  have hx := abs_le.mp hx
  have hy := abs_le.mp hy
  have hf : assertIs false (.ok true) = .error .assertion := by
    unfold assertIs
    rw [ok_bind, assertE_of_not (by simp)]
  by_cases hyc : |y| ≤ 1e-8
  · simp only [closeTo, e, e1, ok_bind, error_bind, assertIs_ok, hf,
      hu.close hτ hu (by norm_num) (by norm_num) ⟨1, by simp, by simp⟩,
      close_none e3 true (iff_of_true rfl hyc),
      close_some e2 (t := 0.999) true (iff_of_true rfl (by linarith))]
  · simp only [closeTo, e, e1, ok_bind, error_bind, assertIs_ok, hf,
      hu.close hτ hu (by norm_num) (by norm_num) ⟨1, by simp, by simp⟩,
      close_none e3 false (iff_of_false (by simp) hyc),
      close_some e2 (t := 0.999) true (iff_of_true rfl (by linarith)),
      close_some e3 (t := 0.999) true (iff_of_true rfl (by linarith))]

/-- `test_close_to` in exact arithmetic. -/
theorem Tests.closeTo_exact {sample : Arr} {V : Matrix (Fin 2) (Fin 2) ℂ} (ha : sample.Is V)
    (hV : V ∈ unitaryGroup (Fin 2) ℂ) :
    closeTo 0 sample = if overlap V Gate.T < 0.999 then .ok () else .error .assertion := by
  obtain ⟨u, e, hu, hp, -⟩ := C01_construct_ok (by norm_num : 0 < 2) ha hV none none false []
  obtain ⟨t, e1, hte, htm, -⟩ := C27_t
  have ov : overlap (u.matrix.toMatrix 2) (t.matrix.toMatrix 2) = overlap V Gate.T := overlap_congr hp htm
  have e2 : u.distanceFromArr 0 u.matrix = .ok 0 := by
    have := C05_distance_value hu hu
    rw [(overlap_eq_one_iff hu.pos hu.unitary hu.unitary).mpr ⟨1, by simp, by simp⟩, sub_self] at this
    exact this
  have e3 : u.distanceFromArr 0 t.matrix = .ok (1 - overlap V Gate.T) := by
    have := C05_distance_value hu hte
    rw [ov] at this
    exact this
  have hov0 : 0 ≤ overlap V Gate.T := overlap_nonneg _ _
  have hov1 : overlap V Gate.T ≤ 1 := overlap_le_one hV T_mem
  have e' : Unitary.random 0 2 sample = .ok u := e
  have hf : assertIs false (.ok true) = .error .assertion := by
    unfold assertIs
    rw [ok_bind, assertE_of_not (by simp)]
  have h1 : |1 - overlap V Gate.T| = 1 - overlap V Gate.T := abs_of_nonneg (by linarith)
  split_ifs with h
  · simp only [closeTo, e', e1, ok_bind, assertIs_ok,
      close_none e2 true (iff_of_true rfl (by norm_num)), close_some e2 (t := 0.999) true (iff_of_true rfl (by norm_num)),
      close_none e3 false (iff_of_false (by simp) (by rw [h1]; linarith)),
      close_some e3 (t := 0.999) false (iff_of_false (by simp) (by linarith)),
      close_some e3 (t := 0) true (iff_of_true rfl (by linarith))]
  · by_cases hyc : |1 - overlap V Gate.T| ≤ 1e-8
    · simp only [closeTo, e', e1, ok_bind, error_bind, assertIs_ok, hf,
        close_none e2 true (iff_of_true rfl (by norm_num)), close_some e2 (t := 0.999) true (iff_of_true rfl (by norm_num)),
        close_none e3 true (iff_of_true rfl hyc)]
    · simp only [closeTo, e', e1, ok_bind, error_bind, assertIs_ok, hf,
        close_none e2 true (iff_of_true rfl (by norm_num)), close_some e2 (t := 0.999) true (iff_of_true rfl (by norm_num)),
        close_none e3 false (iff_of_false (by simp) hyc),
        close_some e3 (t := 0.999) true (iff_of_true rfl (by linarith))]

/-- `test_non_unitary_matrix` passes if the product of the matrix and its adjoint is computed roughly. -/
theorem Tests.pass_nonUnitaryMatrix (ht : τ.tau ≤ 1)
    (h : ∀ a b : Arr, a.cols = 2 → a.val 0 0 = 1 → a.val 0 1 = 0 → b.val 0 1 = 1 → b.val 1 1 = 1 →
      ‖τ.mul a b 0 1 - 1‖ ≤ 1 / 2) : nonUnitaryMatrix τ = .ok () := by
  unfold nonUnitaryMatrix Unitary.new
  rw [assertE_of (by norm_num), ok_bind]
  simp only [Option.getD_some]
  rw [assertE_of (by simp [Arr.clean, Arr.ofRows]), ok_bind, assertE_of_not ?_]
  · rfl
  intro hall
  have h1 : Arr.cleanR τ.tau 1 = 1 := by unfold Arr.cleanR; rw [if_neg (by simpa using ht)]
  have h0 : Arr.cleanR τ.tau 0 = 0 := by unfold Arr.cleanR; simp
  have hc : ∀ i j : ℕ, ((Arr.ofRows [[1, 0], [1, 1]]).clean τ.tau).val i j =
      ⟨Arr.cleanR τ.tau ((Arr.ofRows [[1, 0], [1, 1]]).val i j).re, Arr.cleanR τ.tau ((Arr.ofRows [[1, 0], [1, 1]]).val i j).im⟩ :=
    fun _ _ => rfl
  have hone : (⟨1, 0⟩ : ℂ) = 1 := rfl
  have hzero : (⟨0, 0⟩ : ℂ) = 0 := rfl
  have := h ((Arr.ofRows [[1, 0], [1, 1]]).clean τ.tau) ((Arr.ofRows [[1, 0], [1, 1]]).clean τ.tau).ct rfl
    (by rw [hc]; simp [Arr.ofRows, h1, h0, hone]) (by rw [hc]; simp [Arr.ofRows, h0, hzero])
    (by simp only [Arr.ct]; rw [hc]; simp [Arr.ofRows, h1, h0, hone])
    (by simp only [Arr.ct]; rw [hc]; simp [Arr.ofRows, h1, h0, hone])
  have hcl := hall 0 (by simp [Arith.matmul, Arr.clean, Arr.ofRows]) 1 (by simp [Arith.matmul, Arr.clean, Arr.ct, Arr.ofRows])
  simp only [isclose, Arr.identity, Arith.matmul] at hcl
  norm_num at hcl
  have h3 : ‖(1 : ℂ)‖ ≤ ‖τ.mul ((Arr.ofRows [[1, 0], [1, 1]]).clean τ.tau) ((Arr.ofRows [[1, 0], [1, 1]]).clean τ.tau).ct 0 1‖ +
      ‖τ.mul ((Arr.ofRows [[1, 0], [1, 1]]).clean τ.tau) ((Arr.ofRows [[1, 0], [1, 1]]).clean τ.tau).ct 0 1 - 1‖ := by
    rw [norm_sub_rev]
    exact norm_le_insert' _ _
  rw [norm_one] at h3
  linarith

theorem Tests.X_mul_X : Gate.X * Gate.X = 1 := by
  ext i j; fin_cases i <;> fin_cases j <;> simp [Gate.X, Matrix.mul_apply, Fin.sum_univ_two]

theorem Tests.pass_tensor (hτ : Fine τ) : Tests.tensor τ = .ok () := by
  obtain ⟨u, e, hu⟩ := default_gives hτ (by norm_num : 0 < 2) (by norm_num)
  obtain ⟨x, e1, hx, -⟩ := (paulis_give hτ).1
  obtain ⟨a, e2, ha⟩ := hu.tensor hτ hu (by norm_num) (d := 4) rfl (by norm_num)
  obtain ⟨b, e3, hb⟩ := hx.tensor hτ hx (by norm_num) (d := 4) rfl (by norm_num)
  obtain ⟨c, e4, hc⟩ := hb.mul hτ hb (by norm_num)
  have hov : overlap (tensorMat (d := 4) rfl Gate.X Gate.X) 1 ≤ 0.999 := by
    have : ((tensorMat (d := 4) rfl Gate.X Gate.X)ᴴ * 1).trace = 0 := by
      simp [Matrix.trace, Fin.sum_univ_four, tensorMat_apply, Gate.X]
    unfold overlap
    rw [this]
    norm_num
  have h4 : (2 : ℕ) ^ 2 = 4 := rfl
  simp only [Tests.tensor, h4, e, e1, e2, e3, e4, ok_bind, assertIs_ok, ha.dim, hb.dim, assertE_true,
    ha.closeArr hτ (by norm_num) (same_of_eq (tensorMat_one _)), hb.farArr hτ (by norm_num) hov,
    hc.closeArr hτ (by norm_num) (same_of_eq (by rw [tensorMat_mul, X_mul_X, tensorMat_one]))]

theorem Tests.XY_same : SamePhase (Gate.X * Gate.Y) Gate.Z :=
  ⟨Complex.I, by simp, by
    ext i j; fin_cases i <;> fin_cases j <;> simp [Gate.X, Gate.Y, Gate.Z, Matrix.mul_apply, Fin.sum_univ_two]⟩

theorem Tests.ZXY_same : SamePhase (Gate.Z * (Gate.X * Gate.Y)) 1 :=
  ⟨Complex.I, by simp, by
    ext i j; fin_cases i <;> fin_cases j <;> simp [Gate.X, Gate.Y, Gate.Z, Matrix.mul_apply, Fin.sum_univ_two]⟩

theorem Tests.pass_multiply (hτ : Fine τ) : Tests.multiply τ = .ok () := by
  obtain ⟨i, e, hi⟩ := identity_gives hτ (by norm_num : 0 < 2) (by norm_num)
  obtain ⟨j, e0, hj⟩ := default_gives hτ (by norm_num : 0 < 2) (by norm_num)
  obtain ⟨⟨x, e1, hx, -⟩, ⟨y, e2, hy, -⟩, ⟨z, e3, hz, -⟩, -⟩ := paulis_give hτ
  obtain ⟨a, e4, ha⟩ := hj.mul hτ hx (by norm_num)
  obtain ⟨b, e5, hb⟩ := ha.rmul hτ hy (by norm_num)
  obtain ⟨c, e6, hc⟩ := hb.mul hτ hz (by norm_num)
  simp only [Tests.multiply, e, e0, e1, e2, e3, e4, e5, e6, ok_bind, assertIs_ok,
    ha.close hτ hx (by norm_num) (by norm_num) (same_of_eq (mul_one _)),
    hb.close hτ hz (by norm_num) (by norm_num) (by rw [mul_one]; exact XY_same),
    hc.close hτ hi (by norm_num) (by norm_num) (by rw [mul_one]; exact ZXY_same)]

theorem Tests.H_mul_H : Gate.H * Gate.H = 1 := by
  have h : ((1 / Real.sqrt 2 : ℝ) : ℂ) * ((1 / Real.sqrt 2 : ℝ) : ℂ) = 1 / 2 := by
    rw [← Complex.ofReal_mul, div_mul_div_comm, one_mul, Real.mul_self_sqrt (by norm_num)]; norm_num
  unfold Gate.H
  rw [smul_mul_smul_comm, h]
  ext i j; fin_cases i <;> fin_cases j <;> norm_num [Gate.X, Gate.Z, Matrix.mul_apply, Fin.sum_univ_two]

theorem Tests.H_mem : Gate.H ∈ unitaryGroup (Fin 2) ℂ := by
  have h : Gate.Hᴴ = Gate.H := by
    unfold Gate.H
    rw [conjTranspose_smul, Complex.star_def, Complex.conj_ofReal]
    congr 1
    ext i j; fin_cases i <;> fin_cases j <;> simp [Gate.X, Gate.Z]
  rw [mem_unitaryGroup_iff, star_eq_conjTranspose, h, H_mul_H]

theorem Tests.T_pow_same : Gate.T * (Gate.T * (Gate.T * Gate.T)) = Gate.Z := by
  have h : Complex.exp (Real.pi / 4 * Complex.I) * (Complex.exp (Real.pi / 4 * Complex.I) *
      (Complex.exp (Real.pi / 4 * Complex.I) * Complex.exp (Real.pi / 4 * Complex.I))) = -1 := by
    rw [← Complex.exp_add, ← Complex.exp_add, ← Complex.exp_add, ← Complex.exp_pi_mul_I]
    congr 1
    ring
  ext i j; fin_cases i <;> fin_cases j <;> simp [Gate.T, Gate.Z, Matrix.mul_apply, Fin.sum_univ_two, h]

theorem Tests.CCNOT_mul : Gate.CCNOT * Gate.CCNOT = 1 := by
  ext i j
  rw [Matrix.mul_apply]
  fin_cases i <;> fin_cases j <;> simp [Gate.CCNOT, Fin.sum_univ_eight]

theorem Tests.pass_definitions (hτ : Fine τ) : Tests.definitions τ = .ok () := by
  obtain ⟨i, e, hi⟩ := identity_gives hτ (by norm_num : 0 < 2) (by norm_num)
  obtain ⟨j, e0, hj⟩ := identity_gives hτ (by norm_num : 0 < 8) (by norm_num)
  obtain ⟨-, -, ⟨z, e1, hz, -⟩, ⟨t, e2, ht, -⟩⟩ := paulis_give hτ
  obtain ⟨h, e3, hh, -⟩ := NearGate.gives (k := 1) (C62_hadamard (hτ.mono (by norm_num : 2 ≤ 16))
    (by unfold driftLimit; norm_num)) (by norm_num) (by norm_num) H_mem (by norm_num)
  obtain ⟨-, h1, h2⟩ := C62_fixed (hτ.mono (by norm_num : 8 ≤ 16)) (by unfold driftLimit; norm_num)
  obtain ⟨cc, e4, hcc, -⟩ := NearGate.gives (k := 1) h1 (by norm_num) (by norm_num) Gate.CCNOT_unitary (by norm_num)
  obtain ⟨q, e5, hq, -⟩ := NearGate.gives (k := 1) h2 (by norm_num) (by norm_num) Gate.phaseFlip_unitary (by norm_num)
  obtain ⟨a, e6, ha⟩ := hh.mul hτ hh (by norm_num)
  obtain ⟨t2, e7, ht2⟩ := ht.mul hτ ht (by norm_num)
  obtain ⟨t3, e8, ht3⟩ := ht2.mul hτ ht (by norm_num)
  obtain ⟨t4, e9, ht4⟩ := ht3.mul hτ ht (by norm_num)
  obtain ⟨b, e10, hb⟩ := hcc.mul hτ hcc (by norm_num)
  obtain ⟨qi, e11, hqi, -⟩ := hq.inverse hτ (by norm_num)
  obtain ⟨c, e12, hc⟩ := hq.mul hτ hqi (by norm_num)
  simp only [Tests.definitions, e, e0, e1, e2, e3, e4, e5, e6, e7, e8, e9, e10, e11, e12, ok_bind, assertIs_ok,
    ha.close hτ hi (by norm_num) (by norm_num) (same_of_eq H_mul_H),
    ht4.close hτ hz (by norm_num) (by norm_num) (same_of_eq T_pow_same),
    hb.close hτ hj (by norm_num) (by norm_num) (same_of_eq CCNOT_mul),
    hc.close hτ hj (by norm_num) (by norm_num) (same_of_eq (star_mul_self hq.mem))]

theorem Tests.rx_gives (hτ : Fine τ) {θ : ℝ} (hθ : |θ| ≤ 100) :
    Gives (rx τ θ) (Gate.rot Gate.X θ) 1 "Rx" [("θ", (θ, true))] ∧
    Gives (ry τ θ) (Gate.rot Gate.Y θ) 1 "Ry" [("θ", (θ, true))] ∧ ∀ φ : ℝ, |φ| ≤ 100 →
    Gives (UnitaryDefinitions.rphi τ θ φ) (Gate.rot ((Real.cos φ : ℂ) • Gate.X + (Real.sin φ : ℂ) • Gate.Y) θ) 1 "R"
      [("θ", (θ, true)), ("Φ", (φ, true))] := by
  have h := fun φ hφ => C62_rotations (hτ.mono (by norm_num : 2 ≤ 16)) (by unfold driftLimit; norm_num) hθ (φ := φ) hφ
  have h0 := h 0 (by norm_num)
  exact ⟨NearGate.gives h0.1 (by norm_num) (by norm_num) (mem_specialUnitaryGroup_iff.mp (Gate.rot_X_su θ)).1 (by norm_num),
    NearGate.gives h0.2.1 (by norm_num) (by norm_num) (mem_specialUnitaryGroup_iff.mp (Gate.rot_Y_su θ)).1 (by norm_num),
    fun φ hφ => NearGate.gives (h φ hφ).2.2.2 (by norm_num) (by norm_num)
      (mem_specialUnitaryGroup_iff.mp (Gate.rot_axis_su θ φ)).1 (by norm_num)⟩

theorem Tests.abs_pi_le {q : ℝ} (hq : |q| ≤ 10) : |q * Real.pi| ≤ 100 := by
  rw [abs_mul, abs_of_pos Real.pi_pos]
  nlinarith [Real.pi_pos, Real.pi_le_four, abs_nonneg q]

theorem Tests.pass_rphiOnce (hτ : Fine τ) {θ : ℝ} (hθ : |θ| ≤ 100) : rphiOnce τ θ = .ok () := by
  obtain ⟨⟨x, e, hx, -⟩, ⟨y, e1, hy, -⟩, h⟩ := rx_gives hτ hθ
  obtain ⟨a, e2, ha, -⟩ := h 0 (by norm_num)
  have hpi : |Real.pi / 2| ≤ 100 := by
    rw [show Real.pi / 2 = 1 / 2 * Real.pi by ring]; exact abs_pi_le (by norm_num [abs_of_pos])
  obtain ⟨b, e3, hb, -⟩ := h (Real.pi / 2) hpi
  simp only [rphiOnce, e, e1, e2, e3, ok_bind, assertIs_ok,
    ha.close hτ hx (by norm_num) (by norm_num) (same_of_eq (by simp)),
    hb.close hτ hy (by norm_num) (by norm_num) (same_of_eq (by simp))]

theorem Tests.pass_rphi (hτ : Fine τ) : Tests.rphi τ = .ok () := by
  have h : ∀ {θ q : ℝ}, θ = q * Real.pi → |q| ≤ 10 → rphiOnce τ θ = .ok () := by
    rintro θ q rfl hq
    exact pass_rphiOnce hτ (abs_pi_le hq)
  have h0 := h (θ := 0) (q := 0) (by ring) (by norm_num)
  have h1 := h (θ := Real.pi / 8) (q := 1 / 8) (by ring) (by norm_num [abs_of_pos])
  have h2 := h (θ := Real.pi / 4) (q := 1 / 4) (by ring) (by norm_num [abs_of_pos])
  have h3 := h (θ := Real.pi) (q := 1) (by ring) (by norm_num)
  have h4 := h (θ := 3 * Real.pi / 2) (q := 3 / 2) (by ring) (by norm_num [abs_of_pos])
  have h5 := h (θ := -Real.pi / 4) (q := -1 / 4) (by ring) (by norm_num [abs_of_neg])
  simp only [Tests.rphi, List.forM_eq_forM, List.forM_cons, List.forM_nil, h0, h1, h2, h3, h4, h5, ok_bind]
  rfl

theorem Tests.within_prefix (a b : String) : Within a (a ++ b) := ⟨[], b.toList, by simp⟩

theorem Tests.within_append_left {a b : String} (h : Within a b) (c : String) : Within a (c ++ b) := by
  obtain ⟨s, t, h⟩ := h
  exact ⟨c.toList ++ s, t, by simp [← h]⟩

theorem Tests.within_append_right {a b : String} (h : Within a b) (c : String) : Within a (b ++ c) := by
  obtain ⟨s, t, h⟩ := h
  exact ⟨s, t ++ c.toList, by simp [← h]⟩

/-- Display names begin with the name of the operation. -/
theorem Tests.within_name (fmt : ℕ → ℝ → String) (u : Unitary) : Within u.operationName (u.getDisplayName fmt) := by
  unfold Unitary.getDisplayName
  exact within_append_right (within_append_right (within_append_right ⟨[], [], by simp⟩ _) _) _

theorem Tests.pass_displayName (hτ : Fine τ) (fmt : ℕ → ℝ → String) : displayName τ fmt = .ok () := by
  obtain ⟨u, e, hu, u1, u2, u3, u4⟩ := gate_gives hτ (by norm_num) (by norm_num) phases_is.1 phases_is.2 "test"
    (args := []) (by simp) (some "Rx") none
  obtain ⟨v, e1, hv, v1, v2, v3, v4⟩ := renew_gives hτ hu (by norm_num) (some "Rx") (some [("abc", (1, true))])
  obtain ⟨w, e2, hw, w1, w2, w3, w4⟩ := renew_gives hτ hv (by norm_num) (some "Rx")
    (some [("abc", (1, true)), ("def", (2, false))])
  have d1 : u.getDisplayName fmt = "Rx" := by
    unfold Unitary.getDisplayName
    rw [u1, u2, u3, u4]
    simp
  have d2 : Within "Rx" (v.getDisplayName fmt) := by have := within_name fmt v; rwa [v1] at this
  have d3 : Within "Rx" (w.getDisplayName fmt) := by have := within_name fmt w; rwa [w1] at this
  have d4 : w.getDisplayName fmt = "Rx" ++ "(" ++ "abc" ++ "=" ++ fmt 3 (1 / Real.pi) ++ "π" ++ ", " ++ "def" ++ "=" ++
      fmt 4 2 ++ ")" := by
    unfold Unitary.getDisplayName
    rw [w1, w2, w3, w4]
    have hi : ∀ a b : String, ", ".intercalate [a, b] = a ++ ", " ++ b := fun _ _ => rfl
    rw [← String.toList_inj]
    simp [hi]
  have d5 : Within "abc" (w.getDisplayName fmt) := by
    rw [d4]
    iterate 8 apply within_append_right
    exact within_append_left ⟨[], [], by simp⟩ _
  have d6 : Within "def" (w.getDisplayName fmt) := by
    rw [d4]
    iterate 3 apply within_append_right
    exact within_append_left ⟨[], [], by simp⟩ _
  simp only [displayName, e, e1, e2, ok_bind, d1, assertE_of d2, assertE_of d3, assertE_of d5, assertE_of d6, assertE_true]

theorem Tests.pass_qasm (hτ : Fine τ) (fmt : ℕ → ℝ → String) : qasm τ fmt = .ok () := by
  obtain ⟨u, e, hu, u1, u2, u3, u4⟩ := gate_gives hτ (by norm_num) (by norm_num) phases_is.1 phases_is.2 "test"
    (args := []) (by simp) (some "Rcustom") none
  have d1 : u.getQasm fmt = "Rcustom" ++ "\t" ++ "q[0];" := by
    unfold Unitary.getQasm Unitary.textQubits
    rw [u1, u2, u4, hu.dim]
    simp [intLog2]
    rfl
  simp only [qasm, e, ok_bind, d1, assertE_true]

theorem Tests.pass_jaqal (hτ : Fine τ) (fmt : ℕ → ℝ → String) : jaqal τ fmt = .ok () := by
  obtain ⟨u, e, hu, u1, u2, u3, u4⟩ := gate_gives hτ (by norm_num) (by norm_num) phases_is.1 phases_is.2 "test"
    (args := []) (by simp) (some "Rcustom") none
  have d1 : u.getJaqal fmt = "Rcustom" ++ " q[0] " := by
    unfold Unitary.getJaqal Unitary.textQubits
    rw [u1, u2, u4, hu.dim]
    simp [intLog2]
    rfl
  simp only [jaqal, e, ok_bind, d1, assertE_true]

end Stoq
