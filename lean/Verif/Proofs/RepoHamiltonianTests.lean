import Mathlib.Analysis.Real.Pi.Bounds
import Verif.Proofs.Gms
import Verif.Proofs.HitsThen
import Verif.Proofs.RepoRavTests
import Verif.Props.DriftHamiltonian
import Verif.Props.RepoTests
import Verif.Props.ContinuousStoq
import Verif.Props.QdriftDistance
import Verif.Props.RavLength

/-! # The tests of Hamiltonians: what each call does -/

namespace Stoq

open Matrix Tests

open scoped Matrix.Norms.L2Operator

namespace Tests

variable {τ : Arith}

/-! ## The matrix of the tests -/

/-- `3 + K` with `K² = 5`. -/
noncomputable def shiftedMat : Matrix (Fin 2) (Fin 2) ℂ := !![3, 2 + Complex.I; 2 - Complex.I, 3]

/-- `K / √5`. -/
noncomputable def shiftAxis : Matrix (Fin 2) (Fin 2) ℂ :=
  ((1 / √5 : ℝ) : ℂ) • !![0, 2 + Complex.I; 2 - Complex.I, 0]

theorem shifted_is : shifted.Is shiftedMat := by
  refine ⟨rfl, rfl, ?_⟩
  ext i j
  fin_cases i <;> fin_cases j <;> simp [Arr.toMatrix, shifted, Arr.ofRows, shiftedMat]

theorem shifted_ct : shiftedMat.IsHermitian := by
  ext i j
  fin_cases i <;> fin_cases j <;> simp [shiftedMat, Matrix.conjTranspose_apply, sub_eq_add_neg]

theorem shifted_ne : shiftedMat ≠ 0 := by
  intro h
  have := congrFun (congrFun h 0) 0
  simp [shiftedMat] at this

theorem shiftAxis_sq : shiftAxis * shiftAxis = 1 := by
  have h5 : ((1 / √5 : ℝ) : ℂ) * ((1 / √5 : ℝ) : ℂ) = 1 / 5 := by
    rw [← Complex.ofReal_mul, div_mul_div_comm, Real.mul_self_sqrt (by norm_num)]
    norm_num
  have hI : (2 + Complex.I) * (2 - Complex.I) = 5 := by
    ring_nf; rw [Complex.I_sq]; norm_num
  have hI' : (2 - Complex.I) * (2 + Complex.I) = 5 := by rw [mul_comm]; exact hI
  unfold shiftAxis
  rw [smul_mul_smul_comm, h5]
  ext i j
  fin_cases i <;> fin_cases j <;> simp [hI, hI']

theorem shiftAxis_trace : shiftAxis.trace = 0 := by
  unfold shiftAxis
  rw [trace_smul, trace_fin_two_of]
  simp

theorem shifted_eq (k : ℕ) : (List.replicate k shiftedMat).sum =
    ((3 * k : ℝ) : ℂ) • (1 : Matrix (Fin 2) (Fin 2) ℂ) + ((√5 * k : ℝ) : ℂ) • shiftAxis := by
  have h5 : ((√5 : ℝ) : ℂ) * ((1 / √5 : ℝ) : ℂ) = 1 := by
    rw [← Complex.ofReal_mul, mul_one_div_cancel (by positivity)]
    norm_num
  have h1 : shiftedMat = (3 : ℂ) • (1 : Matrix (Fin 2) (Fin 2) ℂ) + ((√5 : ℝ) : ℂ) • shiftAxis := by
    unfold shiftAxis
    rw [smul_smul, h5, one_smul]
    ext i j
    fin_cases i <;> fin_cases j <;> simp [shiftedMat]
  rw [List.sum_replicate, h1]
  push_cast
  rw [← Nat.cast_smul_eq_nsmul ℂ, smul_add, smul_smul, smul_smul, mul_comm (k : ℂ), mul_comm (k : ℂ)]

/-- The overlap of the evolution with the identity. -/
theorem shifted_overlap (k : ℕ) (t : ℝ) :
    overlap (evolution (List.replicate k shiftedMat).sum t) 1 = |Real.cos (√5 * k * t)| := by
  have h1 : evolution (List.replicate k shiftedMat).sum t =
      Complex.exp ((3 * k * t : ℝ) * Complex.I) • Gate.rot shiftAxis (-2 * (√5 * k * t)) := by
    unfold evolution
    rw [shifted_eq, smul_add, smul_smul, smul_smul, Gate.rot_eq_exp shiftAxis_sq,
      Matrix.exp_add_of_commute _ _ (((Commute.one_left _).smul_left _).smul_right _)]
    have h2 : NormedSpace.exp ((Complex.I * t * ((3 * k : ℝ) : ℂ)) • (1 : Matrix (Fin 2) (Fin 2) ℂ)) =
        Complex.exp ((3 * k * t : ℝ) * Complex.I) • (1 : Matrix (Fin 2) (Fin 2) ℂ) := by
      rw [Gate.exp_idempotent (one_mul 1)]
      have : Complex.I * t * ((3 * k : ℝ) : ℂ) = (3 * k * t : ℝ) * Complex.I := by push_cast; ring
      rw [this]
      module
    rw [h2, smul_mul_assoc, one_mul]
    congr 3
    push_cast
    ring
  unfold overlap
  rw [mul_one, trace_conjTranspose, norm_star, h1, trace_smul, norm_smul, Complex.norm_exp_ofReal_mul_I, one_mul,
    Gate.rot, trace_sub, trace_smul, trace_smul, shiftAxis_trace, trace_one]
  simp only [smul_eq_mul, Fintype.card_fin]
  rw [show -2 * (√5 * k * t) / 2 = -(√5 * k * t) by ring, Real.cos_neg, mul_zero, sub_zero, norm_mul, Complex.norm_real,
    Real.norm_eq_abs]
  simp only [Nat.cast_ofNat, RCLike.norm_ofNat]
  ring

theorem shifted_far : |Real.cos (√5 * (2 : ℕ) * (3 * 1.234))| ≤ 0.8 := by
  have h1 : √5 ≤ 2.237 := Real.sqrt_le_iff.mpr (by norm_num)
  have h2 : 2.236 ≤ √5 := Real.le_sqrt_of_sq_le (by norm_num)
  have hp := Real.pi_gt_d2
  have hp' := Real.pi_lt_d2
  have hs : √2 ≤ 1.5 := Real.sqrt_le_iff.mpr (by norm_num)
  set x := √5 * (2 : ℕ) * (3 * 1.234) with hx
  have hxe : x = √5 * 7.404 := by rw [hx]; push_cast; ring
  have e : Real.cos x = - Real.cos (x - 5 * Real.pi) := by
    rw [show x = (x - 5 * Real.pi) + Real.pi + (2 : ℕ) * (2 * Real.pi) by push_cast; ring, Real.cos_add_nat_mul_two_pi,
      Real.cos_add_pi]
    congr 2
    push_cast
    ring
  have h3 : Real.cos (x - 5 * Real.pi) ≤ Real.cos (Real.pi / 4) :=
    Real.cos_le_cos_of_nonneg_of_le_pi (by linarith) (by linarith) (by linarith)
  have h4 : 0 ≤ Real.cos (x - 5 * Real.pi) := Real.cos_nonneg_of_mem_Icc ⟨by linarith, by linarith⟩
  rw [Real.cos_pi_div_four] at h3
  rw [e, abs_neg, abs_of_nonneg h4]
  linarith

/-- A Hamiltonian with that matrix as its only term, repeated. -/
theorem shifted_of (k : ℕ) {t : HamiltonianTerm} (ht : HamiltonianTerm.new shifted = .ok t) :
    ∃ H, Hamiltonian.new (List.replicate (k + 1) t) = .ok H ∧ H.dimension = 2 ∧
      H.Of (n := 1) (List.replicate (k + 1) shiftedMat) := by
  have hd := (C45_normalisation shifted_is ht).1
  refine ⟨⟨t.dimension, List.replicate (k + 1) t⟩, ?_, hd, List.replicate (k + 1) shifted, List.replicate (k + 1) t, ?_, ?_, ?_⟩
  · unfold Hamiltonian.new
    rw [List.replicate_succ]
    dsimp only
    rw [assertE_of (by
      intro t' ht'
      rw [← List.replicate_succ] at ht'
      rw [List.eq_of_mem_replicate ht'])]
    rfl
  · generalize k + 1 = j
    induction j with
    | zero => exact .nil
    | succ j ih => exact .cons ⟨shifted_is, shifted_ct⟩ ih
  · generalize k + 1 = j
    induction j with
    | zero => exact .nil
    | succ j ih => exact .cons ht ih
  · unfold Hamiltonian.new
    rw [List.replicate_succ]
    dsimp only
    rw [assertE_of (by
      intro t' ht'
      rw [← List.replicate_succ] at ht'
      rw [List.eq_of_mem_replicate ht'])]
    rfl

theorem shifted_norm : maxAbsEigenvalue shiftedMat ≤ 6 := by
  rw [maxAbsEigenvalue_eq (by norm_num) shifted_ct]
  have h1 := shifted_eq 1
  rw [List.replicate_one, List.sum_singleton] at h1
  have hu : shiftAxis ∈ unitaryGroup (Fin 2) ℂ := by
    rw [mem_unitaryGroup_iff, star_eq_conjTranspose]
    have : shiftAxisᴴ = shiftAxis := by
      unfold shiftAxis
      rw [conjTranspose_smul]
      congr 1
      · simp
      · ext i j
        fin_cases i <;> fin_cases j <;> simp [sub_eq_add_neg]
    rw [this, shiftAxis_sq]
  have h2 : √5 ≤ 3 := Real.sqrt_le_iff.mpr (by norm_num)
  rw [h1]
  refine (norm_add_le _ _).trans ?_
  rw [norm_smul, norm_smul, norm_unitary (by norm_num) hu, norm_unitary (by norm_num) (one_mem _)]
  simp only [Complex.norm_real, Real.norm_eq_abs, Nat.cast_one, mul_one]
  rw [abs_of_pos (by norm_num : (0 : ℝ) < 3), abs_of_nonneg (Real.sqrt_nonneg _)]
  linarith

/-! ## The deterministic tests -/

theorem pass_actionEnum : actionEnum = .ok () := by
  simp [actionEnum, Action.isAppend, Action.isRemove, assertE]

theorem pass_termsMismatched : termsMismatched = .ok () := by
  obtain ⟨t, ht⟩ := C45_accepts shifted_is shifted_ct shifted_ne
  have hI : (Arr.ofRows [[3, 2 + Complex.I, 0, 0], [2 - Complex.I, 0, 0, 0], [0, 0, 0, 0], [0, 0, 0, 3]]).Is
      (!![3, 2 + Complex.I, 0, 0; 2 - Complex.I, 0, 0, 0; 0, 0, 0, 0; 0, 0, 0, 3] : Matrix (Fin 4) (Fin 4) ℂ) := by
    refine ⟨rfl, rfl, ?_⟩
    ext i j
    fin_cases i <;> fin_cases j <;> simp [Arr.toMatrix, Arr.ofRows]
  obtain ⟨t', ht'⟩ := C45_accepts hI (by
    ext i j
    fin_cases i <;> fin_cases j <;> simp [Matrix.conjTranspose_apply, sub_eq_add_neg]) (by
    intro h
    have := congrFun (congrFun h 0) 0
    simp at this)
  have hd := (C45_normalisation shifted_is ht).1
  have hd' := (C45_normalisation hI ht').1
  unfold termsMismatched
  rw [ht, ok_bind, ht', ok_bind]
  unfold Hamiltonian.new
  dsimp only
  rw [assertE_of_not (by simp [hd, hd'])]
  rfl

theorem pass_nonHermitian : nonHermitian = .ok () := by
  unfold nonHermitian
  rw [C45_rejects]
  · rfl
  · rintro ⟨-, h⟩
    have := h 0 (by simp [Arr.ofRows]) 1 (by simp [Arr.ofRows])
    norm_num [Arr.ofRows] at this

theorem pass_simpleHermitian : simpleHermitian = .ok () := by
  obtain ⟨t, ht⟩ := C45_accepts shifted_is shifted_ct shifted_ne
  obtain ⟨h1, h2, h3, h4, N, h5, h6, h7, -⟩ := C45_normalisation shifted_is ht
  unfold simpleHermitian
  rw [ht, ok_bind, assertE_of (show t.dimension = shifted.rows from h1), ok_bind, assertE_of, ok_bind, assertE_of h3.le, ok_bind, assertE_of, ok_bind, assertE_of]
  · have : t.normalizedMatrix.maxSingularValue = 1 := by
      obtain ⟨-, -, -, g1, rfl⟩ := term_new_eq_ok.mp ht
      dsimp only
      rw [maxSingularValue_eq ((shifted_is).smul _), norm_smul, maxSingularValue_eq shifted_is, Complex.norm_real,
        Real.norm_eq_abs, abs_of_nonneg (by positivity)]
      rw [maxSingularValue_eq shifted_is] at g1
      rw [one_div, inv_mul_cancel₀ g1]
    rw [this]
    simp [isclose]
    norm_num
  · exact Arr.allclose_of_eq rfl rfl (by
      change shifted.toMatrix 2 = (Arr.smul (t.coefficient : ℂ) t.normalizedMatrix).toMatrix 2
      rw [shifted_is.2.2, (h5.smul (t.coefficient : ℂ)).2.2, ← h6])
  · exact Arr.allclose_of_eq rfl rfl (by
      change shifted.toMatrix 2 = t.getMatrix.toMatrix 2
      rw [shifted_is.2.2, h2.2.2])

theorem pass_simpleTerms (hτ : Fine τ) : simpleTerms τ = .ok () := by
  obtain ⟨t, ht⟩ := C45_accepts shifted_is shifted_ct shifted_ne
  have hd := (C45_normalisation shifted_is ht).1
  obtain ⟨H2, e2, d2, o2⟩ := shifted_of 1 ht
  obtain ⟨H3, e3, d3, o3⟩ := shifted_of 2 ht
  obtain ⟨i, ei, ri⟩ := identity_gives hτ (d := 2) (by norm_num) (by norm_num)
  have hsn := shifted_norm
  have hs0 : 0 ≤ maxAbsEigenvalue shiftedMat := by
    rw [maxAbsEigenvalue_eq (by norm_num) shifted_ct]; exact norm_nonneg _
  have key : ∀ {k : ℕ} {H : Hamiltonian} (hH : H.Of (n := 1) (List.replicate k shiftedMat)) (x : ℝ), |x| * (k * 6) ≤ 100 →
      Gives (H.getTimeEvolutionOperator τ x) (evolution (List.replicate k shiftedMat).sum x) 1 "H" [("t", (x, false))] := by
    intro k H hH x hx
    refine NearGate.gives (C64_evolution (hτ.mono (by norm_num : 2 ^ 1 ≤ 16)) (by unfold driftLimit; norm_num) hH ?_)
      (by norm_num) (by norm_num) (evolution_unitary hH.total.2 _) (by norm_num)
    rw [List.map_replicate, List.sum_replicate, nsmul_eq_mul]
    refine le_trans ?_ hx
    gcongr
  obtain ⟨u, eu, ru, -⟩ := key o2 0 (by norm_num)
  obtain ⟨u2, eu2, ru2, -⟩ := key o2 (3 * 1.234) (by norm_num [abs_of_pos])
  obtain ⟨u3, eu3, ru3, -⟩ := key o3 (2 * 1.234) (by norm_num [abs_of_pos])
  unfold simpleTerms
  rw [ht, ok_bind, hd, ei, ok_bind, show Hamiltonian.new [t, t] = .ok H2 from e2, ok_bind,
    show Hamiltonian.new [t, t, t] = .ok H3 from e3, ok_bind, assertE_of d2.symm, ok_bind, assertE_of d3.symm, ok_bind, eu, ok_bind,
    Rep.close hτ ru ri (by norm_num) (by norm_num) (by rw [evolution_zero]; exact SamePhase.refl _), assertIs_ok, ok_bind]
  dsimp only
  rw [eu2, ok_bind, eu3, ok_bind, Rep.far hτ ru2 ri (by norm_num) (by norm_num) ?_, assertIs_ok, ok_bind,
    Rep.close hτ ru2 ru3 (by norm_num) (by norm_num) ?_, assertIs_ok]
  · have : evolution (List.replicate (1 + 1) shiftedMat).sum (3 * 1.234) = evolution (List.replicate (2 + 1) shiftedMat).sum (2 * 1.234) := by
      unfold evolution
      rw [List.sum_replicate, List.sum_replicate, ← Nat.cast_smul_eq_nsmul ℂ, ← Nat.cast_smul_eq_nsmul ℂ, smul_smul, smul_smul]
      congr 2
      push_cast
      ring
    rw [this]
    exact SamePhase.refl _
  · have := shifted_overlap 2 (3 * 1.234)
    change overlap (evolution (List.replicate 2 shiftedMat).sum (3 * 1.234)) 1 ≤ 0.999
    rw [this]
    exact shifted_far.trans (by norm_num)

/-! ## The Hamiltonian of the other tests -/

theorem Y_is : (Arr.ofRows [[0, -Complex.I], [Complex.I, 0]]).Is Gate.Y := by
  refine ⟨rfl, rfl, ?_⟩
  ext i j
  fin_cases i <;> fin_cases j <;> simp [Arr.toMatrix, Arr.ofRows, Gate.Y]

theorem scaled {M : Matrix (Fin 2) (Fin 2) ℂ} (hM : M ∈ unitaryGroup (Fin 2) ℂ) (hc : M.IsHermitian) {a : ℝ} (ha : a ≠ 0) :
    ((a : ℂ) • M).IsHermitian ∧ (a : ℂ) • M ≠ 0 ∧ maxAbsEigenvalue ((a : ℂ) • M) = |a| := by
  have h1 : ((a : ℂ) • M).IsHermitian := by
    unfold Matrix.IsHermitian
    rw [conjTranspose_smul, hc.eq]
    simp
  have h2 : ‖(a : ℂ) • M‖ = |a| := by
    rw [norm_smul, norm_unitary (by norm_num) hM, mul_one, Complex.norm_real, Real.norm_eq_abs]
  refine ⟨h1, ?_, by rw [maxAbsEigenvalue_eq (by norm_num) h1, h2]⟩
  intro h
  rw [h, norm_zero] at h2
  exact ha (abs_eq_zero.mp h2.symm)

theorem X_scaled {a : ℝ} (ha : a ≠ 0) : ((a : ℂ) • Gate.X).IsHermitian ∧ (a : ℂ) • Gate.X ≠ 0 ∧
    maxAbsEigenvalue ((a : ℂ) • Gate.X) = |a| := scaled X_mem Gate.X_ct ha

theorem Y_scaled {a : ℝ} (ha : a ≠ 0) : ((a : ℂ) • Gate.Y).IsHermitian ∧ (a : ℂ) • Gate.Y ≠ 0 ∧
    maxAbsEigenvalue ((a : ℂ) • Gate.Y) = |a| := scaled Y_mem Gate.Y_ct ha

/-- The terms of the Hamiltonian. -/
noncomputable def xyTerms (a b : ℝ) : List (Matrix (Fin (2 ^ 1)) (Fin (2 ^ 1)) ℂ) := [(a : ℂ) • Gate.X, (b : ℂ) • Gate.Y]

theorem xy_of {a b : ℝ} (ha : a ≠ 0) (hb : b ≠ 0) : ∃ H, xyHamiltonian a b = .ok H ∧ H.dimension = 2 ∧ H.Of (xyTerms a b) := by
  obtain ⟨x1, x2, -⟩ := X_scaled ha
  obtain ⟨y1, y2, -⟩ := Y_scaled hb
  have hx := xArr_is.1.smul (a : ℂ)
  have hy := Y_is.smul (b : ℂ)
  obtain ⟨tx, htx⟩ := C45_accepts hx x1 x2
  obtain ⟨ty, hty⟩ := C45_accepts hy y1 y2
  have dx := (C45_normalisation hx htx).1
  have dy := (C45_normalisation hy hty).1
  have hn : Hamiltonian.new [tx, ty] = .ok ⟨tx.dimension, [tx, ty]⟩ := by
    unfold Hamiltonian.new
    dsimp only
    rw [assertE_of (by simp [dx, dy])]
    rfl
  refine ⟨⟨tx.dimension, [tx, ty]⟩, ?_, dx, _, _, .cons ⟨hx, x1⟩ (.cons ⟨hy, y1⟩ .nil), .cons htx (.cons hty .nil), hn⟩
  unfold xyHamiltonian
  rw [htx, ok_bind, hty, ok_bind, hn]

theorem xy_strength {a b : ℝ} (ha : a ≠ 0) (hb : b ≠ 0) :
    ((xyTerms a b).map maxAbsEigenvalue).sum = |a| + |b| := by
  have h1 := (X_scaled ha).2.2
  have h2 := (Y_scaled hb).2.2
  unfold xyTerms
  rw [List.map_cons, List.map_cons, List.map_nil, List.sum_cons, List.sum_cons, List.sum_nil, add_zero]
  exact congrArg₂ _ h1 h2

theorem xy_23 : ∃ H, xyHamiltonian 2 (-3) = .ok H ∧ H.dimension = 2 ∧ H.Of (xyTerms 2 (-3)) := by
  obtain ⟨H, h1, h2⟩ := xy_of (a := 2) (b := -3) (by norm_num) (by norm_num)
  exact ⟨H, by rw [← h1]; push_cast; rfl, h2⟩

theorem xy_101 : ∃ H, xyHamiltonian 10 (-1) = .ok H ∧ H.dimension = 2 ∧ H.Of (xyTerms 10 (-1)) := by
  obtain ⟨H, h1, h2⟩ := xy_of (a := 10) (b := -1) (by norm_num) (by norm_num)
  exact ⟨H, by rw [← h1]; push_cast; rfl, h2⟩

/-! ## The ideal sequence -/

theorem pass_idealSequence (t : Rng.Tape) : (idealSequence 0 (fresh t)).1 = .ok () := by
  obtain ⟨H, h1, hd, hH⟩ := xy_23
  have hs : Session 0 (fresh t) [] := .start _
  have hex : ∀ x ∈ (fresh t).world.entries, x.toVal.Exact := by simp [fresh, Client.start]
  obtain ⟨s, w', p, U, e1, e2, e3, e4, e5, -⟩ := C46_ideal_product hs hex le_rfl hH 1.234 (N := 1000) (by norm_num)
  obtain ⟨-, es, hv, hlen, -⟩ := C46_ideal_shape hs e1
  obtain ⟨s', w'', e, f1, f2, -, -⟩ := C46_ideal_gates hs hex le_rfl hH 1.234 (N := 1000) (by norm_num)
  rw [e1] at f1; cases f1
  obtain ⟨p', q1, q2, q3⟩ := f2.product
  rw [e2] at q1; cases q1
  have hes : es = List.replicate (1000 : ℤ).toNat e := by
    have := f2.view
    rw [hv] at this
    exact (SeqView.mk.inj (Option.some.inj this)).2.2.1
  have hU : U.Exact (2 ^ 1) := by
    obtain ⟨g1, g2⟩ := hH.total
    obtain ⟨U', k1, k2, -⟩ := C29_evolution (by positivity) g1 g2 1.234 ""
    rw [show UnitaryDefinitions.timeEvolution 0 H.totalMatrix 1.234 "" = H.getTimeEvolutionOperator 0 1.234 from rfl, e3] at k1
    cases k1
    exact k2
  unfold idealSequence
  rw [passes_lift h1, passes_lift e3, returned_decides (Mirror.start _) (T := .ideal H 1.234 1000) trivial ⟨1, _, le_rfl, hH⟩
    (b := fun _ => True) ?_]
  · exact ⟨s, w', _, e1, hv, trivial⟩
  · intro s' w2 v k1 k2
    rw [show (Task.ideal H 1.234 1000).run 0 = H.getIdealSequence 0 1.234 1000 from rfl] at k1
    rw [e1] at k1; cases k1
    rw [hv] at k2; cases k2
    refine (assertLength_exact (p := ⟨[], [⟨H.dimension, false, es, none⟩]⟩) (s := 0) rfl (by exact hlen)).decides fun _ _ => ?_
    have := (assertCloseTo_checks (p := ⟨[], [⟨H.dimension, false, es, none⟩]⟩) (s := 0) (n := 1) rfl hd hU none).decides
    refine fun c hc => (this c hc).trans (iff_of_true ?_ trivial)
    have hph : SamePhase (U.matrix.toMatrix (2 ^ 1)) (circuit 1 es) := by
      rw [hes, ← q3.2.2]
      exact e5.symm
    rw [(overlap_eq_one_iff (by norm_num) hU.2.2.2.1 (by rw [hes, ← q3.2.2]; exact q2.2.2.2.1)).mpr hph]
    norm_num [Metropolis.GoodEnough]

end Tests

end Stoq
