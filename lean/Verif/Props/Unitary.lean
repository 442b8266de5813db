import Verif.Proofs.Unitary
import Verif.Proofs.Overlap
import Mathlib.Analysis.SpecialFunctions.Trigonometric.Bounds
import Mathlib.Tactic.NormNum
import Mathlib.Tactic.FinCases

/-!
# Properties C01 - C07: single unitaries

`Unitary.new 0` etc. is the code in exact arithmetic with the clean-up threshold set to 0; statements quantified
over `τ` hold for every matrix arithmetic, in particular the code's `1e-12`.
`u.Exact d` describes the objects the library builds from exactly unitary data (C01).
-/

namespace Stoq

open Matrix

variable {d : ℕ} {u v w : Unitary}

/-! ## C01 -/

/-- Construction succeeds on every unitary matrix, keeps the operation up to a global phase, normalises the
determinant, and keeps the display data. -/
theorem C01_construct_ok (hd : 0 < d) {a : Arr} {M : Matrix (Fin d) (Fin d) ℂ} (ha : a.Is M)
    (hM : M ∈ unitaryGroup (Fin d) ℂ) (name : Option String) (pd : Option ParamDict) (inv : Bool)
    (ap : List ℕ) :
    ∃ u, Unitary.new 0 d (some a) name pd inv ap = .ok u ∧ u.Exact d ∧
      SamePhase (u.matrix.toMatrix d) M ∧ (u.matrix.toMatrix d).det = 1 ∧
      u.operationName = name.getD "U" ∧ u.parameterDict = pd.getD [] ∧ u.isInverse = inv ∧
      u.applyTo = ap := by
  obtain ⟨hr, hc, rfl⟩ := ha
  obtain ⟨c, h1, h2, -, h3⟩ := Unitary.new_exact hd hr hc hM name pd inv ap
  have hdet := Unitary.new_det (t := 0) h3
  refine ⟨_, h3, ⟨hd, hr, hc, ?_⟩, ⟨c, h1, Arr.toMatrix_smul c⟩, hdet, rfl, rfl, rfl, rfl⟩
  rw [mem_specialUnitaryGroup_iff]
  refine ⟨?_, hdet⟩
  rw [Arr.toMatrix_smul, mem_unitaryGroup_iff, star_eq_conjTranspose, conjTranspose_smul,
    smul_mul_smul_comm]
  have hM' : a.toMatrix d * (a.toMatrix d)ᴴ = 1 := mem_unitaryGroup_iff.mp hM
  have : c * star c = 1 := by
    rw [Complex.star_def, Complex.mul_conj, Complex.normSq_eq_norm_sq, h1]; simp
  rw [hM', this, one_smul]

/-- With no matrix given, the identity is stored. -/
theorem C01_construct_default (hd : 0 < d) :
    ∃ u, Unitary.new 0 d = .ok u ∧ u.Holds (1 : Matrix (Fin d) (Fin d) ℂ) ∧ u.operationName = "U" :=
  ⟨_, Unitary.new_default_eq hd, ⟨rfl, rfl, Arr.toMatrix_identity⟩, rfl⟩

/-- Construction fails with AssertionError exactly for a non-positive dimension, a wrong shape, or a (cleaned)
matrix that is not unitary within numpy's tolerance - for every matrix arithmetic, in exact arithmetic. -/
theorem C01_construct_rejects (τ : ℝ) (d : ℕ) (a : Arr) (name : Option String) (pd : Option ParamDict)
    (inv : Bool) (ap : List ℕ) :
    Unitary.new (.exact τ) d (some a) name pd inv ap = .error .assertion ↔
      d = 0 ∨ a.rows ≠ d ∨ a.cols ≠ d ∨
        ¬ ∀ i < d, ∀ j < d, ‖((∑ k ∈ Finset.range d,
            (a.clean τ).val i k * (starRingEnd ℂ) ((a.clean τ).val j k)) - if i = j then 1 else 0)‖
              ≤ 1e-8 + 1e-5 * ‖(if i = j then 1 else 0 : ℂ)‖ := by
  have hcl : (a.clean τ).rows = a.rows ∧ (a.clean τ).cols = a.cols := ⟨rfl, rfl⟩
  unfold Unitary.new
  simp only [Option.getD_some, Arith.exact_tau, Arith.exact_matmul, hcl.1, hcl.2]
  by_cases h0 : d > 0
  swap
  · simp [assertE_of_not h0]; left; omega
  rw [assertE_of h0, ok_bind]
  by_cases h1 : a.rows = d ∧ a.cols = d
  swap
  · rw [assertE_of_not h1]; simp only [error_bind, true_iff]
    by_cases hr : a.rows = d
    · exact .inr (.inr (.inl fun hc => h1 ⟨hr, hc⟩))
    · exact .inr (.inl hr)
  rw [assertE_of h1, ok_bind]
  have hall : allclose ((a.clean τ).matmul (a.clean τ).ct) (Arr.identity d) ↔
      ∀ i < d, ∀ j < d, ‖((∑ k ∈ Finset.range d,
            (a.clean τ).val i k * (starRingEnd ℂ) ((a.clean τ).val j k)) - if i = j then 1 else 0)‖
              ≤ 1e-8 + 1e-5 * ‖(if i = j then 1 else 0 : ℂ)‖ := by
    simp only [allclose, isclose, Arr.matmul, Arr.ct, Arr.identity, hcl.1, hcl.2, h1.1, h1.2]
  by_cases h2 : allclose ((a.clean τ).matmul (a.clean τ).ct) (Arr.identity d)
  · rw [assertE_of h2, ok_bind]
    rw [← hall]
    have hd0 : d ≠ 0 := h0.ne'
    simp only [h1.1, h1.2, h2, ne_eq, not_true_eq_false, or_false, hd0, iff_false]
    by_cases h3 : (a.clean τ).det ≠ 0
    · rw [raiseUnless_of h3]; simp
    · rw [raiseUnless_of_not h3]; simp
  · rw [assertE_of_not h2]; simp only [error_bind, true_iff]
    exact .inr (.inr (.inr fun h => h2 (hall.mpr h)))

/-- Whatever the clean-up threshold and the input, a stored matrix has the declared shape, determinant exactly
one, and is a scalar multiple of the cleaned input. -/
theorem C01_construct_normal_form {τ : ℝ} {a : Arr} {name : Option String} {pd : Option ParamDict}
    {inv : Bool} {ap : List ℕ} (h : Unitary.new (.exact τ) d (some a) name pd inv ap = .ok u) :
    0 < d ∧ u.matrix.rows = d ∧ u.matrix.cols = d ∧ (u.matrix.toMatrix d).det = 1 ∧
      ∃ c : ℂ, u.matrix.toMatrix d = c • (a.clean τ).toMatrix d := by
  obtain ⟨h1, h2, h3⟩ := Unitary.new_shape h
  refine ⟨h1, h2, h3, Unitary.new_det h, ?_⟩
  obtain ⟨-, -, -, -, -, rfl⟩ := Unitary.new_eq_ok.mp h
  exact ⟨_, Arr.toMatrix_smul _⟩

/-- The identity of any positive dimension meets the hypotheses of `C01_construct_ok`. -/
example : (Arr.identity 4).Is (1 : Matrix (Fin 4) (Fin 4) ℂ) ∧
    (1 : Matrix (Fin 4) (Fin 4) ℂ) ∈ unitaryGroup (Fin 4) ℂ :=
  ⟨⟨rfl, rfl, Arr.toMatrix_identity⟩, one_mem _⟩

/-- `X = [[0,1],[1,0]]` (determinant -1, so it is really rescaled) meets them too. -/
example : (Arr.ofRows [[0, 1], [1, 0]]).Is (!![0, 1; 1, 0] : Matrix (Fin 2) (Fin 2) ℂ) ∧
    (!![0, 1; 1, 0] : Matrix (Fin 2) (Fin 2) ℂ) ∈ unitaryGroup (Fin 2) ℂ := by
  refine ⟨⟨rfl, rfl, ?_⟩, ?_⟩
  · ext i j; fin_cases i <;> fin_cases j <;> simp [Arr.toMatrix, Arr.ofRows]
  · rw [mem_unitaryGroup_iff]; ext i j
    fin_cases i <;> fin_cases j <;> simp [Matrix.mul_apply, Fin.sum_univ_two, star_eq_conjTranspose]

/-! ## C02 -/

/-- `inverse` succeeds, holds the conjugate transpose, keeps the display data and flips the dagger mark. -/
theorem C02_inverse_ok (hu : u.Exact d) :
    ∃ v, u.inverse 0 = .ok v ∧ v.Exact d ∧ v.Holds (u.matrix.toMatrix d)⁻¹ ∧
      v.Holds (u.matrix.toMatrix d)ᴴ ∧ v.operationName = u.operationName ∧
      v.parameterDict = u.parameterDict ∧ v.applyTo = u.applyTo ∧ v.isInverse = !u.isInverse := by
  have hinv : (u.matrix.toMatrix d)⁻¹ = (u.matrix.toMatrix d)ᴴ :=
    Matrix.inv_eq_right_inv (mem_unitaryGroup_iff.mp hu.unitary)
  refine ⟨_, Unitary.inverse_eq hu, ⟨hu.pos, hu.cols, hu.rows, ?_⟩, ⟨hu.cols, hu.rows, ?_⟩,
    ⟨hu.cols, hu.rows, Arr.toMatrix_ct⟩, rfl, rfl, rfl, rfl⟩
  · rw [Arr.toMatrix_ct]; exact Unitary.ct_mem_su hu.2.2.2
  · rw [hinv]; exact Arr.toMatrix_ct

/-- Multiplying by the inverse on either side stores exactly the identity matrix. -/
theorem C02_inverse_two_sided (hu : u.Exact d) :
    ∃ v l r, u.inverse 0 = .ok v ∧ u.leftMultiply 0 v = .ok l ∧ u.rightMultiply 0 v = .ok r ∧
      l.Holds (1 : Matrix (Fin d) (Fin d) ℂ) ∧ r.Holds (1 : Matrix (Fin d) (Fin d) ℂ) := by
  obtain ⟨v, hv, hve, -, hvh, -⟩ := C02_inverse_ok hu
  refine ⟨v, _, _, hv, Unitary.leftMultiply_eq hu hve, Unitary.rightMultiply_eq hu hve,
    ⟨hve.rows, hu.cols, ?_⟩, ⟨hu.rows, hve.cols, ?_⟩⟩
  · rw [Unitary.plain, Arr.toMatrix_matmul hve.cols, hvh.2.2]
    exact mem_unitaryGroup_iff'.mp hu.unitary
  · rw [Unitary.plain, Arr.toMatrix_matmul hu.cols, hvh.2.2]
    exact mem_unitaryGroup_iff.mp hu.unitary

/-- `inverse` is an involution on the whole object. -/
theorem C02_inverse_involutive (hu : u.Exact d) :
    ∃ v w, u.inverse 0 = .ok v ∧ v.inverse 0 = .ok w ∧ w.Holds (u.matrix.toMatrix d) ∧
      w.operationName = u.operationName ∧ w.parameterDict = u.parameterDict ∧
      w.applyTo = u.applyTo ∧ w.isInverse = u.isInverse := by
  obtain ⟨v, hv, hve, -, hvh, h1, h2, h3, h4⟩ := C02_inverse_ok hu
  obtain ⟨w, hw, -, -, hwh, h1', h2', h3', h4'⟩ := C02_inverse_ok hve
  refine ⟨v, w, hv, hw, ?_, h1'.trans h1, h2'.trans h2, h3'.trans h3, by rw [h4', h4, Bool.not_not]⟩
  rw [hvh.2.2, conjTranspose_conjTranspose] at hwh
  exact hwh

/-! ## C03 -/

/-- `left_multiply` puts the factor on the left, `right_multiply` on the right; both succeed and the stored
matrix is the product itself, without any extra phase. -/
theorem C03_multiply (hu : u.Exact d) (hv : v.Exact d) :
    ∃ l r, u.leftMultiply 0 v = .ok l ∧ u.rightMultiply 0 v = .ok r ∧ l.Exact d ∧ r.Exact d ∧
      l.Holds (v.matrix.toMatrix d * u.matrix.toMatrix d) ∧
      r.Holds (u.matrix.toMatrix d * v.matrix.toMatrix d) := by
  refine ⟨_, _, Unitary.leftMultiply_eq hu hv, Unitary.rightMultiply_eq hu hv,
    ⟨hu.pos, hv.rows, hu.cols, ?_⟩, ⟨hu.pos, hu.rows, hv.cols, ?_⟩,
    ⟨hv.rows, hu.cols, Arr.toMatrix_matmul hv.cols⟩, ⟨hu.rows, hv.cols, Arr.toMatrix_matmul hu.cols⟩⟩
  · rw [Unitary.plain, Arr.toMatrix_matmul hv.cols]; exact mul_mem hv.2.2.2 hu.2.2.2
  · rw [Unitary.plain, Arr.toMatrix_matmul hu.cols]; exact mul_mem hu.2.2.2 hv.2.2.2

/-- Multiplication is associative: `(w·v)·u = w·(v·u)` through either method. -/
theorem C03_multiply_assoc (hu : u.Exact d) (hv : v.Exact d) (hw : w.Exact d) :
    ∃ vu wvu wv wvu', u.leftMultiply 0 v = .ok vu ∧ vu.leftMultiply 0 w = .ok wvu ∧
      w.rightMultiply 0 v = .ok wv ∧ wv.rightMultiply 0 u = .ok wvu' ∧
      wvu.matrix.toMatrix d = wvu'.matrix.toMatrix d := by
  obtain ⟨vu, _, h1, -, he1, -, hh1, -⟩ := C03_multiply hu hv
  obtain ⟨wvu, _, h2, -, -, -, hh2, -⟩ := C03_multiply he1 hw
  obtain ⟨_, wv, -, h3, -, he3, -, hh3⟩ := C03_multiply hw hv
  obtain ⟨_, wvu', -, h4, -, -, -, hh4⟩ := C03_multiply he3 hu
  refine ⟨vu, wvu, wv, wvu', h1, h2, h3, h4, ?_⟩
  rw [hh2.2.2, hh1.2.2, hh4.2.2, hh3.2.2, Matrix.mul_assoc]

/-- `Unitary.identity(d)` is a unit for multiplication on both sides. -/
theorem C03_multiply_identity (hu : u.Exact d) :
    ∃ i l r, Unitary.identity 0 d = .ok i ∧ i.Exact d ∧ u.leftMultiply 0 i = .ok l ∧
      u.rightMultiply 0 i = .ok r ∧ l.Holds (u.matrix.toMatrix d) ∧ r.Holds (u.matrix.toMatrix d) := by
  have hi := Unitary.identity_eq hu.pos
  have hie : Unitary.Exact ⟨Arr.identity d, "I", [], false, []⟩ d :=
    ⟨hu.pos, rfl, rfl, by rw [Arr.toMatrix_identity]; exact one_mem _⟩
  obtain ⟨l, r, h1, h2, -, -, h3, h4⟩ := C03_multiply hu hie
  rw [Arr.toMatrix_identity, Matrix.one_mul] at h3
  rw [Arr.toMatrix_identity, Matrix.mul_one] at h4
  exact ⟨_, l, r, hi, hie, h1, h2, h3, h4⟩

/-- Factors of a different dimension are rejected, for every matrix arithmetic. -/
theorem C03_multiply_rejects (τ : Arith) (u v : Unitary) (h : u.getDimension ≠ v.getDimension) :
    u.leftMultiply τ v = .error .assertion ∧ u.rightMultiply τ v = .error .assertion := by
  simp [Unitary.leftMultiply, Unitary.rightMultiply, assertE_of_not h]

/-! ## C04 -/

/-- `tensor` is the Kronecker product (row/column index `i` splits as `(i / n, i % n)`). -/
theorem C04_tensor {m n : ℕ} (hu : u.Exact m) (hv : v.Exact n) :
    ∃ w, u.tensor 0 v = .ok w ∧ w.Exact (m * n) ∧ w.getDimension = u.getDimension * v.getDimension ∧
      (∀ i < m * n, ∀ j < m * n, w.matrix.val i j =
        u.matrix.val (i / n) (j / n) * v.matrix.val (i % n) (j % n)) ∧
      w.Holds ((kroneckerMap (· * ·) (u.matrix.toMatrix m) (v.matrix.toMatrix n)).submatrix
        finProdFinEquiv.symm finProdFinEquiv.symm) ∧
      w.operationName = u.operationName ++ "--" ++ v.operationName ∧
      w.parameterDict = u.parameterDict ∧ w.applyTo = u.applyTo := by
  have hr : (u.matrix.kron v.matrix).rows = m * n := by simp [Arr.kron, hu.rows, hv.rows]
  have hc : (u.matrix.kron v.matrix).cols = m * n := by simp [Arr.kron, hu.cols, hv.cols]
  have hk := Arr.toMatrix_kron (a := u.matrix) (m := m) hv.rows hv.cols
  refine ⟨_, Unitary.tensor_eq hu hv, ⟨Nat.mul_pos hu.pos hv.pos, hr, hc, ?_⟩, ?_, ?_, ⟨hr, hc, hk⟩,
    rfl, rfl, rfl⟩
  · simp only [hk]; exact Unitary.kron_mem_su hu.2.2.2 hv.2.2.2
  · rw [hu.dim, hv.dim]; exact hr
  · intro i _ j _; simp [Arr.kron, hv.rows, hv.cols]

/-- `tensor` respects composition: `(u₁·u₂) ⊗ (v₁·v₂) = (u₁ ⊗ v₁)·(u₂ ⊗ v₂)`. -/
theorem C04_tensor_mul {m n : ℕ} {u₁ u₂ v₁ v₂ : Unitary} (hu₁ : u₁.Exact m) (hu₂ : u₂.Exact m)
    (hv₁ : v₁.Exact n) (hv₂ : v₂.Exact n) :
    ∃ u v uv w₁ w₂ w, u₁.rightMultiply 0 u₂ = .ok u ∧ v₁.rightMultiply 0 v₂ = .ok v ∧
      u.tensor 0 v = .ok uv ∧ u₁.tensor 0 v₁ = .ok w₁ ∧ u₂.tensor 0 v₂ = .ok w₂ ∧
      w₁.rightMultiply 0 w₂ = .ok w ∧ uv.matrix.toMatrix (m * n) = w.matrix.toMatrix (m * n) := by
  obtain ⟨_, u, -, h1, -, he1, -, hh1⟩ := C03_multiply hu₁ hu₂
  obtain ⟨_, v, -, h2, -, he2, -, hh2⟩ := C03_multiply hv₁ hv₂
  obtain ⟨uv, h3, -, -, -, hh3, -⟩ := C04_tensor he1 he2
  obtain ⟨w₁, h4, he4, -, -, hh4, -⟩ := C04_tensor hu₁ hv₁
  obtain ⟨w₂, h5, he5, -, -, hh5, -⟩ := C04_tensor hu₂ hv₂
  obtain ⟨_, w, -, h6, -, -, -, hh6⟩ := C03_multiply he4 he5
  refine ⟨u, v, uv, w₁, w₂, w, h1, h2, h3, h4, h5, h6, ?_⟩
  rw [hh3.2.2, hh6.2.2, hh4.2.2, hh5.2.2, submatrix_mul_equiv, hh1.2.2, hh2.2.2]
  congr 1
  exact Matrix.mul_kronecker_mul _ _ _ _

/-- `tensor` respects inverses. -/
theorem C04_tensor_inverse {m n : ℕ} (hu : u.Exact m) (hv : v.Exact n) :
    ∃ ui vi w w' wi, u.inverse 0 = .ok ui ∧ v.inverse 0 = .ok vi ∧ ui.tensor 0 vi = .ok w ∧
      u.tensor 0 v = .ok w' ∧ w'.inverse 0 = .ok wi ∧
      w.matrix.toMatrix (m * n) = wi.matrix.toMatrix (m * n) := by
  obtain ⟨ui, h1, he1, -, hh1, -⟩ := C02_inverse_ok hu
  obtain ⟨vi, h2, he2, -, hh2, -⟩ := C02_inverse_ok hv
  obtain ⟨w, h3, -, -, -, hh3, -⟩ := C04_tensor he1 he2
  obtain ⟨w', h4, he4, -, -, hh4, -⟩ := C04_tensor hu hv
  obtain ⟨wi, h5, -, -, hh5, -⟩ := C02_inverse_ok he4
  refine ⟨ui, vi, w, w', wi, h1, h2, h3, h4, h5, ?_⟩
  rw [hh3.2.2, hh5.2.2, hh4.2.2, hh1.2.2, hh2.2.2, conjTranspose_submatrix]
  congr 1
  exact (Matrix.conjTranspose_kronecker _ _).symm

/-- The tensor product of identities is the identity. -/
theorem C04_tensor_identity {m n : ℕ} (hm : 0 < m) (hn : 0 < n) :
    ∃ i j w, Unitary.identity 0 m = .ok i ∧ Unitary.identity 0 n = .ok j ∧ i.tensor 0 j = .ok w ∧
      w.Holds (1 : Matrix (Fin (m * n)) (Fin (m * n)) ℂ) := by
  have he : ∀ k, 0 < k → Unitary.Exact ⟨Arr.identity k, "I", [], false, []⟩ k := fun k hk =>
    ⟨hk, rfl, rfl, by rw [Arr.toMatrix_identity]; exact one_mem _⟩
  obtain ⟨w, h, -, -, -, hh, -⟩ := C04_tensor (he m hm) (he n hn)
  refine ⟨_, _, w, Unitary.identity_eq hm, Unitary.identity_eq hn, h, ?_⟩
  rw [Arr.toMatrix_identity, Arr.toMatrix_identity] at hh
  have h3 : kroneckerMap (fun x1 x2 : ℂ => x1 * x2) (1 : Matrix (Fin m) (Fin m) ℂ)
      (1 : Matrix (Fin n) (Fin n) ℂ) = 1 := Matrix.one_kronecker_one
  rw [h3] at hh
  simpa using hh

/-! ## C05 -/

/-- `distance_from` succeeds and is one minus the normalised overlap. -/
theorem C05_distance_value (hu : u.Exact d) (hv : v.Exact d) :
    u.distanceFrom 0 v = .ok (1 - overlap (u.matrix.toMatrix d) (v.matrix.toMatrix d)) :=
  Unitary.distanceFrom_eq hu hv

/-- It lies between 0 and 1. -/
theorem C05_distance_range (hu : u.Exact d) (hv : v.Exact d) :
    ∃ x, u.distanceFrom 0 v = .ok x ∧ 0 ≤ x ∧ x ≤ 1 :=
  ⟨_, Unitary.distanceFrom_eq hu hv, by linarith [overlap_le_one hu.unitary hv.unitary],
    by linarith [overlap_nonneg (u.matrix.toMatrix d) (v.matrix.toMatrix d)]⟩

/-- It is symmetric. -/
theorem C05_distance_symm (hu : u.Exact d) (hv : v.Exact d) : u.distanceFrom 0 v = v.distanceFrom 0 u := by
  rw [Unitary.distanceFrom_eq hu hv, Unitary.distanceFrom_eq hv hu, overlap_comm]

/-- It vanishes exactly when the operations agree up to a global phase. -/
theorem C05_distance_zero_iff (hu : u.Exact d) (hv : v.Exact d) :
    u.distanceFrom 0 v = .ok 0 ↔ SamePhase (u.matrix.toMatrix d) (v.matrix.toMatrix d) := by
  rw [Unitary.distanceFrom_eq hu hv, ← overlap_eq_one_iff hu.pos hu.unitary hv.unitary]
  simp only [Except.ok.injEq]
  constructor <;> intro h <;> linarith

/-- It does not see global phases: only the operations matter. -/
theorem C05_distance_phase_blind {u' v' : Unitary} (hu : u.Exact d) (hv : v.Exact d) (hu' : u'.Exact d)
    (hv' : v'.Exact d) (h1 : SamePhase (u.matrix.toMatrix d) (u'.matrix.toMatrix d))
    (h2 : SamePhase (v.matrix.toMatrix d) (v'.matrix.toMatrix d)) :
    u.distanceFrom 0 v = u'.distanceFrom 0 v' := by
  rw [Unitary.distanceFrom_eq hu hv, Unitary.distanceFrom_eq hu' hv', overlap_congr h1 h2]

/-- It is unchanged when both arguments are multiplied by the same unitary, on either side. -/
theorem C05_distance_invariant (hu : u.Exact d) (hv : v.Exact d) (hw : w.Exact d) :
    ∃ ul vl ur vr, u.leftMultiply 0 w = .ok ul ∧ v.leftMultiply 0 w = .ok vl ∧
      u.rightMultiply 0 w = .ok ur ∧ v.rightMultiply 0 w = .ok vr ∧
      ul.distanceFrom 0 vl = u.distanceFrom 0 v ∧ ur.distanceFrom 0 vr = u.distanceFrom 0 v := by
  obtain ⟨ul, ur, h1, h2, he1, he2, hh1, hh2⟩ := C03_multiply hu hw
  obtain ⟨vl, vr, h3, h4, he3, he4, hh3, hh4⟩ := C03_multiply hv hw
  refine ⟨ul, vl, ur, vr, h1, h3, h2, h4, ?_, ?_⟩
  · rw [Unitary.distanceFrom_eq he1 he3, Unitary.distanceFrom_eq hu hv, hh1.2.2, hh3.2.2,
      overlap_mul_left hw.unitary]
  · rw [Unitary.distanceFrom_eq he2 he4, Unitary.distanceFrom_eq hu hv, hh2.2.2, hh4.2.2,
      overlap_mul_right hw.unitary]

/-- It is unchanged when both arguments are inverted. -/
theorem C05_distance_inverse (hu : u.Exact d) (hv : v.Exact d) :
    ∃ ui vi, u.inverse 0 = .ok ui ∧ v.inverse 0 = .ok vi ∧
      ui.distanceFrom 0 vi = u.distanceFrom 0 v := by
  obtain ⟨ui, h1, he1, -, hh1, -⟩ := C02_inverse_ok hu
  obtain ⟨vi, h2, he2, -, hh2, -⟩ := C02_inverse_ok hv
  exact ⟨ui, vi, h1, h2, by
    rw [Unitary.distanceFrom_eq he1 he2, Unitary.distanceFrom_eq hu hv, hh1.2.2, hh2.2.2,
      overlap_conjTranspose]⟩

/-- Arguments of a different shape are rejected, for every matrix arithmetic. -/
theorem C05_distance_rejects (τ : Arith) (u : Unitary) (a : Arr)
    (h : a.rows ≠ u.getDimension ∨ a.cols ≠ u.getDimension) :
    u.distanceFromArr τ a = .error .assertion := by
  unfold Unitary.distanceFromArr
  rw [assertE_of_not (by tauto)]; rfl

/-! ## C06 -/

/-- With a threshold, `close_to` holds iff the normalised overlap is at least the threshold. -/
theorem C06_close_iff (hu : u.Exact d) (hv : v.Exact d) (t : ℝ) :
    u.closeTo 0 v (some t) = .ok true ↔ t ≤ overlap (u.matrix.toMatrix d) (v.matrix.toMatrix d) := by
  rw [Unitary.closeTo_some_eq hu hv]; simp

/-- `close_to` always returns a boolean on operands of equal dimension. -/
theorem C06_close_total (hu : u.Exact d) (hv : v.Exact d) (t : Option ℝ) :
    ∃ b, u.closeTo 0 v t = .ok b := by
  cases t with
  | none => exact ⟨_, Unitary.closeTo_none_eq hu hv⟩
  | some t => exact ⟨_, Unitary.closeTo_some_eq hu hv t⟩

/-- Larger thresholds are harder to reach. -/
theorem C06_close_antitone (hu : u.Exact d) (hv : v.Exact d) {s t : ℝ} (hst : s ≤ t)
    (h : u.closeTo 0 v (some t) = .ok true) : u.closeTo 0 v (some s) = .ok true := by
  rw [C06_close_iff hu hv] at *; linarith

/-- A threshold of 0 (or below) is always reached, a threshold above 1 never. -/
theorem C06_close_trivial (hu : u.Exact d) (hv : v.Exact d) {t : ℝ} :
    (t ≤ 0 → u.closeTo 0 v (some t) = .ok true) ∧ (1 < t → u.closeTo 0 v (some t) = .ok false) := by
  constructor
  · intro h; rw [C06_close_iff hu hv]; linarith [overlap_nonneg (u.matrix.toMatrix d) (v.matrix.toMatrix d)]
  · intro h; rw [Unitary.closeTo_some_eq hu hv]
    have := overlap_le_one hu.unitary hv.unitary
    simp only [Except.ok.injEq, decide_eq_false_iff_not]; linarith

/-- Symmetry, for both forms of the threshold. -/
theorem C06_close_symm (hu : u.Exact d) (hv : v.Exact d) (t : Option ℝ) :
    u.closeTo 0 v t = v.closeTo 0 u t := by
  cases t with
  | none => rw [Unitary.closeTo_none_eq hu hv, Unitary.closeTo_none_eq hv hu, overlap_comm]
  | some t => rw [Unitary.closeTo_some_eq hu hv, Unitary.closeTo_some_eq hv hu, overlap_comm]

/-- Threshold 1 is equality up to global phase. -/
theorem C06_close_one_iff (hu : u.Exact d) (hv : v.Exact d) :
    u.closeTo 0 v (some 1) = .ok true ↔ SamePhase (u.matrix.toMatrix d) (v.matrix.toMatrix d) := by
  rw [C06_close_iff hu hv, ← overlap_eq_one_iff hu.pos hu.unitary hv.unitary]
  have := overlap_le_one hu.unitary hv.unitary
  constructor <;> intro h <;> linarith

/-- With no threshold, `close_to` holds iff the distance is at most `1e-8`. -/
theorem C06_close_none_iff (hu : u.Exact d) (hv : v.Exact d) :
    u.closeTo 0 v none = .ok true ↔ 1 - overlap (u.matrix.toMatrix d) (v.matrix.toMatrix d) ≤ 1e-8 := by
  rw [Unitary.closeTo_none_eq hu hv]
  have := overlap_le_one hu.unitary hv.unitary
  simp only [Except.ok.injEq, decide_eq_true_eq]
  rw [abs_of_nonneg (by linarith)]

/-- `None` is weaker than the documented default of 1.0. -/
theorem C06_close_none_of_one (hu : u.Exact d) (hv : v.Exact d)
    (h : u.closeTo 0 v (some 1) = .ok true) : u.closeTo 0 v none = .ok true := by
  rw [C06_close_iff hu hv] at h
  rw [C06_close_none_iff hu hv]; norm_num; linarith

/-- Stored object with the diagonal `(e^{-iε}, e^{iε})`. -/
noncomputable def tinyPhase (ε : ℝ) : Unitary :=
  ⟨Arr.ofRows [[Complex.exp (-(ε : ℂ) * Complex.I), 0], [0, Complex.exp ((ε : ℂ) * Complex.I)]], "U", [], false, []⟩

theorem tinyPhase_toMatrix (ε : ℝ) : (tinyPhase ε).matrix.toMatrix 2 =
    !![Complex.exp (-(ε : ℂ) * Complex.I), 0; 0, Complex.exp ((ε : ℂ) * Complex.I)] := by
  ext i j; fin_cases i <;> fin_cases j <;> simp [tinyPhase, Arr.toMatrix, Arr.ofRows]

theorem tinyPhase_exact (ε : ℝ) : (tinyPhase ε).Exact 2 := by
  refine ⟨by norm_num, rfl, rfl, ?_⟩
  rw [tinyPhase_toMatrix, mem_specialUnitaryGroup_iff, mem_unitaryGroup_iff]
  have h : Complex.exp (-(ε : ℂ) * Complex.I) * Complex.exp ((ε : ℂ) * Complex.I) = 1 := by
    rw [← Complex.exp_add]; simp
  have h1 : (starRingEnd ℂ) (Complex.exp (-(ε : ℂ) * Complex.I)) = Complex.exp ((ε : ℂ) * Complex.I) := by
    rw [← Complex.exp_conj]; simp
  have h2 : (starRingEnd ℂ) (Complex.exp ((ε : ℂ) * Complex.I)) = Complex.exp (-(ε : ℂ) * Complex.I) := by
    rw [← Complex.exp_conj]; simp
  constructor
  · ext i j
    fin_cases i <;> fin_cases j <;>
      simp [Matrix.mul_apply, Fin.sum_univ_two, star_eq_conjTranspose]
    · rw [← neg_mul, h1, h]
    · rw [h2, mul_comm, h]
  · rw [det_fin_two_of, h]; simp

/-- The documented "If None, a threshold of 1.0 is used" (compiler.py:86-88) is false: there are unitaries
that `close_to` accepts without a threshold and rejects with threshold 1.0. -/
theorem C06_none_is_not_one : ∃ u v : Unitary, u.Exact 2 ∧ v.Exact 2 ∧
    u.closeTo 0 v none = .ok true ∧ u.closeTo 0 v (some 1) = .ok false := by
  have hov : overlap ((tinyPhase 0).matrix.toMatrix 2) ((tinyPhase 1e-4).matrix.toMatrix 2)
      = Real.cos 1e-4 := by
    have h : Complex.exp (-((1e-4 : ℝ) : ℂ) * Complex.I) + Complex.exp (((1e-4 : ℝ) : ℂ) * Complex.I)
        = 2 * ((Real.cos 1e-4 : ℝ) : ℂ) := by
      rw [Complex.ofReal_cos, Complex.cos]; ring
    have hpos : 0 ≤ Real.cos 1e-4 := by
      apply Real.cos_nonneg_of_neg_pi_div_two_le_of_le <;> linarith [Real.two_le_pi]
    unfold overlap
    rw [tinyPhase_toMatrix, tinyPhase_toMatrix]
    have ht : ((!![Complex.exp (-((0 : ℝ) : ℂ) * Complex.I), 0; 0, Complex.exp (((0 : ℝ) : ℂ) * Complex.I)])ᴴ *
        !![Complex.exp (-((1e-4 : ℝ) : ℂ) * Complex.I), 0; 0, Complex.exp (((1e-4 : ℝ) : ℂ) * Complex.I)]).trace
        = 2 * ((Real.cos 1e-4 : ℝ) : ℂ) := by
      rw [← h]
      simp [Matrix.trace, Matrix.mul_apply, Fin.sum_univ_two]
    rw [ht, norm_mul, Complex.norm_real, Real.norm_eq_abs, abs_of_nonneg hpos]
    norm_num
  have hlt : Real.cos 1e-4 < 1 := by
    refine lt_of_le_of_ne (Real.cos_le_one _) fun h => ?_
    have := (Real.cos_eq_one_iff_of_lt_of_lt (by linarith [Real.two_le_pi])
      (by linarith [Real.two_le_pi])).mp h
    norm_num at this
  refine ⟨tinyPhase 0, tinyPhase 1e-4, tinyPhase_exact _, tinyPhase_exact _, ?_, ?_⟩
  · rw [C06_close_none_iff (tinyPhase_exact _) (tinyPhase_exact _), hov]
    have := Real.one_sub_sq_div_two_le_cos (x := 1e-4)
    norm_num at this ⊢; linarith
  · rw [Unitary.closeTo_some_eq (tinyPhase_exact _) (tinyPhase_exact _), hov]
    simpa using hlt

/-! ## C07 -/

/-- The diagonal matrix `diag(x, y)`. -/
def diag2 (x y : ℝ) : Arr := Arr.ofRows [[(x : ℂ), 0], [0, (y : ℂ)]]

theorem diag2_clean {τ x y : ℝ} (hx : τ ≤ |x|) (hy : τ ≤ |y|) : (diag2 x y).clean τ = diag2 x y := by
  have h0 : Arr.cleanR τ 0 = 0 := by simp [Arr.cleanR]
  have h1 : Arr.cleanR τ x = x := by simp [Arr.cleanR, not_lt.mpr hx]
  have h2 : Arr.cleanR τ y = y := by simp [Arr.cleanR, not_lt.mpr hy]
  simp only [Arr.clean, diag2, Arr.ofRows, Arr.mk.injEq, true_and]
  funext i j
  rcases i with _ | _ | i <;> rcases j with _ | _ | j <;> simp [h0, h1, h2, Complex.ext_iff]

theorem diag2_toMatrix (x y : ℝ) : (diag2 x y).toMatrix 2 = !![(x : ℂ), 0; 0, (y : ℂ)] := by
  ext i j; fin_cases i <;> fin_cases j <;> simp [diag2, Arr.toMatrix, Arr.ofRows]

theorem diag2_matmul (x y : ℝ) : (diag2 x y).matmul (diag2 x y) = diag2 (x * x) (y * y) := by
  simp only [Arr.matmul, diag2, Arr.ofRows, Arr.mk.injEq]
  refine ⟨rfl, rfl, ?_⟩
  funext i j
  rcases i with _ | _ | i <;> rcases j with _ | _ | j <;> simp [Finset.sum_range_succ]

/-- The constructor's tolerance is not closed under multiplication: an accepted unitary whose square is
rejected.  This holds at the code's clean-up threshold and at every smaller one. -/
theorem C07_tolerance_not_closed (τ : ℝ) (hτ : τ ≤ codeTau) : ∃ (a : Arr) (u : Unitary),
    Unitary.new (.exact τ) 2 (some a) = .ok u ∧ u.leftMultiply (.exact τ) u = .error .assertion ∧
    u.rightMultiply (.exact τ) u = .error .assertion := by
  have hτ' : τ ≤ 1e-12 := hτ
  set x : ℝ := 250001 / 250000 with hx
  set y : ℝ := 250000 / 250001 with hy
  have hcl : (diag2 x y).clean τ = diag2 x y := by
    apply diag2_clean <;> rw [abs_of_pos (by norm_num [hx, hy])] <;> norm_num [hx, hy] at * <;> linarith
  have hcl2 : (diag2 (x * x) (y * y)).clean τ = diag2 (x * x) (y * y) := by
    apply diag2_clean <;> rw [abs_of_pos (by norm_num [hx, hy])] <;> norm_num [hx, hy] at * <;> linarith
  have hdet : (diag2 x y).det = 1 := by
    rw [Arr.det_eq (d := 2) rfl, diag2_toMatrix, det_fin_two_of]
    norm_num [hx, hy]
  have hnew : Unitary.new (.exact τ) 2 (some (diag2 x y)) = .ok (Unitary.plain (diag2 x y)) := by
    rw [Unitary.new_eq_ok]
    simp only [Option.getD_some, Arith.exact_tau, Arith.exact_balanced, Arith.exact_matmul, hcl, hdet]
    refine ⟨by norm_num, rfl, rfl, ?_, one_ne_zero, by simp [Unitary.plain]⟩
    intro i hi j hj
    have hi' : i < 2 := hi
    have hj' : j < 2 := hj
    interval_cases i <;> interval_cases j <;>
      simp [isclose, Arr.matmul, Arr.ct, Arr.identity, diag2, Arr.ofRows, Finset.sum_range_succ] <;>
      norm_cast <;> norm_num [hx, hy, abs_of_pos, abs_of_neg]
  have hbad : ¬ ∀ i < 2, ∀ j < 2, ‖((∑ k ∈ Finset.range 2,
            ((diag2 (x * x) (y * y)).clean τ).val i k *
              (starRingEnd ℂ) (((diag2 (x * x) (y * y)).clean τ).val j k)) - if i = j then 1 else 0)‖
              ≤ 1e-8 + 1e-5 * ‖(if i = j then 1 else 0 : ℂ)‖ := by
    intro h
    have h00 := h 0 (by norm_num) 0 (by norm_num)
    rw [hcl2] at h00
    simp [diag2, Arr.ofRows, Finset.sum_range_succ] at h00
    norm_cast at h00
    rw [Real.norm_eq_abs] at h00
    have := le_of_abs_le h00
    norm_num [hx] at this
  refine ⟨diag2 x y, _, hnew, ?_, ?_⟩
  · unfold Unitary.leftMultiply
    rw [assertE_of rfl, ok_bind]
    refine (C01_construct_rejects ..).mpr (.inr (.inr (.inr ?_)))
    show ¬ _
    simp only [Unitary.getMatrix, Unitary.plain, Arith.exact_matmul, diag2_matmul]
    exact hbad
  · unfold Unitary.rightMultiply
    rw [assertE_of rfl, ok_bind]
    refine (C01_construct_rejects ..).mpr (.inr (.inr (.inr ?_)))
    simp only [Unitary.getMatrix, Unitary.plain, Arith.exact_matmul, diag2_matmul]
    exact hbad

/-- On exactly unitary data multiplication never raises (this is `C03_multiply`), so the failure above needs
accumulated deviation. -/
theorem C07_exact_never_raises (hu : u.Exact d) (hv : v.Exact d) :
    (∃ l, u.leftMultiply 0 v = .ok l) ∧ ∃ r, u.rightMultiply 0 v = .ok r := by
  obtain ⟨l, r, h1, h2, -⟩ := C03_multiply hu hv
  exact ⟨⟨l, h1⟩, ⟨r, h2⟩⟩

end Stoq
