import Verif.Proofs.Norm
import Verif.Proofs.Num
import Verif.Proofs.Unitary
import Verif.Spec.Hamiltonian

/-!
# C45: Hamiltonian terms
-/

namespace Stoq

open Matrix HamiltonianTerm

open scoped Matrix.Norms.L2Operator

variable {d : ℕ}

theorem maxSingularValue_eq {a : Arr} {M : Matrix (Fin d) (Fin d) ℂ} (ha : a.Is M) : a.maxSingularValue = ‖M‖ := by
  obtain ⟨rfl, -, rfl⟩ := ha
  rfl

theorem Arr.Is.smul {a : Arr} {M : Matrix (Fin d) (Fin d) ℂ} (ha : a.Is M) (c : ℂ) : (a.smul c).Is (c • M) :=
  ⟨ha.1, ha.2.1, by rw [Arr.toMatrix_smul, ha.2.2]⟩

/-- When the constructor succeeds, and what it makes. -/
theorem term_new_eq_ok {a : Arr} {t : HamiltonianTerm} :
    HamiltonianTerm.new a = .ok t ↔ a.cols = a.rows ∧ allclose a a.ct ∧ a.rows ≠ 0 ∧ a.maxSingularValue ≠ 0 ∧
      t = ⟨a.rows, a.maxSingularValue, a.smul ((1 / a.maxSingularValue : ℝ) : ℂ)⟩ := by
  unfold HamiltonianTerm.new
  by_cases h1 : a.cols = a.rows
  swap
  · rw [assertE_of_not h1]; simp [h1, bind, Except.bind]
  rw [assertE_of h1, ok_bind]
  by_cases h2 : allclose a a.ct
  swap
  · rw [assertE_of_not h2]; simp [h2, bind, Except.bind]
  rw [assertE_of h2, ok_bind]
  by_cases h3 : a.rows ≠ 0
  swap
  · rw [raiseUnless_of_not h3]; simp [h3, bind, Except.bind]
  rw [raiseUnless_of h3, ok_bind]
  dsimp only
  rw [assertE_of (show a.maxSingularValue ≥ 0 from norm_nonneg _), ok_bind]
  by_cases h4 : a.maxSingularValue ≠ 0
  swap
  · rw [assertE_of_not h4]; simp [h4, bind, Except.bind]
  rw [assertE_of h4, ok_bind, assertE_of, ok_bind]
  · constructor
    · intro h
      exact ⟨h1, h2, h3, h4, (Except.ok.inj h).symm⟩
    · rintro ⟨-, -, -, -, rfl⟩
      rfl
  · refine Arr.allclose_of_eq rfl h1 ?_
    unfold getMatrix
    rw [Arr.toMatrix_smul, Arr.toMatrix_smul, smul_smul, ← Complex.ofReal_mul, mul_one_div_cancel h4,
      Complex.ofReal_one, one_smul]

/-! ## C45 -/

/-- C45: for every matrix the constructor accepts, `get_matrix()` is that matrix, the coefficient is positive and is
the largest singular value, the normalised matrix times the coefficient is the matrix, and the largest singular value
of the normalised matrix is 1. -/
theorem C45_normalisation {a : Arr} {M : Matrix (Fin d) (Fin d) ℂ} (ha : a.Is M) {t : HamiltonianTerm}
    (h : HamiltonianTerm.new a = .ok t) :
    t.dimension = d ∧ t.getMatrix.Is M ∧ 0 < t.coefficient ∧ IsGreatest (singularValues M) t.coefficient ∧
      ∃ N, t.normalizedMatrix.Is N ∧ M = (t.coefficient : ℂ) • N ∧ IsGreatest (singularValues N) 1 ∧
        (M.IsHermitian → N.IsHermitian ∧ IsGreatest (absEigenvalues M) t.coefficient ∧
          IsGreatest (absEigenvalues N) 1) := by
  obtain ⟨h1, h2, h3, h4, rfl⟩ := term_new_eq_ok.mp h
  have hd : 0 < d := by
    obtain ⟨rfl, -, -⟩ := ha
    omega
  rw [maxSingularValue_eq ha] at h4 ⊢
  have hpos : 0 < ‖M‖ := lt_of_le_of_ne (norm_nonneg _) (Ne.symm h4)
  have hN := ha.smul ((1 / ‖M‖ : ℝ) : ℂ)
  have hM : M = ((‖M‖ : ℝ) : ℂ) • (((1 / ‖M‖ : ℝ) : ℂ) • M) := by
    rw [smul_smul, ← Complex.ofReal_mul, mul_one_div_cancel h4, Complex.ofReal_one, one_smul]
  have hnorm : ‖((1 / ‖M‖ : ℝ) : ℂ) • M‖ = 1 := by
    rw [norm_smul, Complex.norm_real, Real.norm_eq_abs, abs_of_pos (by positivity), one_div_mul_cancel h4]
  refine ⟨ha.1, ?_, hpos, norm_isGreatest_singular hd M, _, hN, hM, ?_, fun hH => ?_⟩
  · have := hN.smul ((‖M‖ : ℝ) : ℂ)
    rw [← hM] at this
    exact this
  · have := norm_isGreatest_singular hd (((1 / ‖M‖ : ℝ) : ℂ) • M)
    rw [hnorm] at this
    exact this
  · have hNH : (((1 / ‖M‖ : ℝ) : ℂ) • M).IsHermitian := by
      unfold Matrix.IsHermitian
      rw [conjTranspose_smul, hH.eq]
      congr 1
      exact Complex.conj_ofReal _
    refine ⟨hNH, norm_isGreatest hd hH, ?_⟩
    have := norm_isGreatest hd hNH
    rw [hnorm] at this
    exact this

/-- C45: every non-zero Hermitian matrix is accepted. -/
theorem C45_accepts {a : Arr} {M : Matrix (Fin d) (Fin d) ℂ} (ha : a.Is M) (hH : M.IsHermitian) (h0 : M ≠ 0) :
    ∃ t, HamiltonianTerm.new a = .ok t := by
  refine ⟨_, term_new_eq_ok.mpr ⟨ha.2.1.trans ha.1.symm, ?_, ?_, ?_, rfl⟩⟩
  · exact Arr.allclose_of_eq ha.1 ha.2.1 (by rw [Arr.toMatrix_ct, ha.2.2, hH.eq])
  · rw [ha.1]
    rintro rfl
    exact h0 (by ext i; exact i.elim0)
  · rw [maxSingularValue_eq ha]
    exact norm_ne_zero_iff.mpr h0

/-- C45: a matrix that is not square, or differs from its conjugate transpose by more than the tolerance of
`np.allclose`, is rejected. -/
theorem C45_rejects {a : Arr} (h : ¬ (a.cols = a.rows ∧ ∀ i < a.rows, ∀ j < a.cols,
      ‖a.val i j - (starRingEnd ℂ) (a.val j i)‖ ≤ 1e-8 + 1e-5 * ‖a.val j i‖)) :
    HamiltonianTerm.new a = .error .assertion := by
  unfold HamiltonianTerm.new
  by_cases h1 : a.cols = a.rows
  swap
  · rw [assertE_of_not h1]; rfl
  rw [assertE_of h1, ok_bind, assertE_of_not]
  · rfl
  · intro hc
    refine h ⟨h1, fun i hi j hj => ?_⟩
    have := hc i hi j hj
    simpa [isclose, Arr.ct] using this

/-- C45: the zero matrix of any size is rejected; the error is a ValueError for the matrix without rows. -/
theorem C45_zero {a : Arr} (ha : a.Is (0 : Matrix (Fin d) (Fin d) ℂ)) :
    HamiltonianTerm.new a = .error (if d = 0 then .valueError else .assertion) := by
  unfold HamiltonianTerm.new
  rw [assertE_of (ha.2.1.trans ha.1.symm), ok_bind,
    assertE_of (Arr.allclose_of_eq ha.1 ha.2.1 (by rw [Arr.toMatrix_ct, ha.2.2, conjTranspose_zero])), ok_bind]
  by_cases hd : d = 0
  · rw [if_pos hd, raiseUnless_of_not (by rw [ha.1]; simpa using hd)]
    rfl
  · rw [if_neg hd, raiseUnless_of (by rw [ha.1]; exact hd), ok_bind]
    dsimp only
    rw [assertE_of (show a.maxSingularValue ≥ 0 from norm_nonneg _), ok_bind, assertE_of_not (by rw [maxSingularValue_eq ha]; simp)]
    rfl

/-- C45: exactly which arrays are accepted. -/
theorem C45_accepted_iff {a : Arr} :
    (∃ t, HamiltonianTerm.new a = .ok t) ↔ a.cols = a.rows ∧ (∀ i < a.rows, ∀ j < a.cols,
      ‖a.val i j - (starRingEnd ℂ) (a.val j i)‖ ≤ 1e-8 + 1e-5 * ‖a.val j i‖) ∧
      ∃ i < a.rows, ∃ j < a.cols, a.val i j ≠ 0 := by
  constructor
  · rintro ⟨t, h⟩
    obtain ⟨h1, h2, h3, h4, -⟩ := term_new_eq_ok.mp h
    refine ⟨h1, fun i hi j hj => by simpa [isclose, Arr.ct] using h2 i hi j hj, ?_⟩
    by_contra hc
    push Not at hc
    refine h4 ?_
    rw [maxSingularValue_eq (M := 0) ⟨rfl, h1, ?_⟩, norm_zero]
    ext i j
    exact hc i i.2 j (by rw [h1]; exact j.2)
  · rintro ⟨h1, h2, i, hi, j, hj, hne⟩
    refine ⟨_, term_new_eq_ok.mpr ⟨h1, fun i hi j hj => by simpa [isclose, Arr.ct] using h2 i hi j hj, by omega, ?_, rfl⟩⟩
    rw [maxSingularValue_eq (M := a.toMatrix a.rows) ⟨rfl, h1, rfl⟩, norm_ne_zero_iff]
    intro hc
    exact hne (congrFun (congrFun hc ⟨i, hi⟩) ⟨j, by rw [← h1]; exact hj⟩)

/-! ## Cases that meet the hypotheses -/

/-- `diag(2, -3)`: the coefficient is 3. -/
example : ∃ t, HamiltonianTerm.new (Arr.ofRows [[2, 0], [0, -3]]) = .ok t ∧ t.coefficient = 3 := by
  have ha : (Arr.ofRows [[2, 0], [0, -3]]).Is (diagonal ![2, -3] : Matrix (Fin 2) (Fin 2) ℂ) :=
    ⟨rfl, rfl, by ext i j; fin_cases i <;> fin_cases j <;> simp [Arr.toMatrix, Arr.ofRows]⟩
  obtain ⟨t, ht⟩ := C45_accepts ha (by ext i j; fin_cases i <;> fin_cases j <;> simp)
    (fun h => by have := congrFun (congrFun h 0) 0; simp at this)
  refine ⟨t, ht, ?_⟩
  obtain ⟨-, -, -, -, -, rfl⟩ := term_new_eq_ok.mp ht
  simp only
  rw [maxSingularValue_eq ha, l2_opNorm_diagonal]
  refine le_antisymm ((pi_norm_le_iff_of_nonneg (by norm_num)).mpr fun i => ?_) ?_
  · fin_cases i
    · simp; norm_num
    · simp
  · simpa using norm_le_pi_norm (![2, -3] : Fin 2 → ℂ) 1

/-- The raising operator is not accepted. -/
example : HamiltonianTerm.new (Arr.ofRows [[0, 1], [0, 0]]) = .error .assertion :=
  C45_rejects (fun h => by
    have := h.2 0 (by simp [Arr.ofRows]) 1 (by simp [Arr.ofRows])
    simp [Arr.ofRows] at this
    norm_num at this)

end Stoq
