import Mathlib.Analysis.SpecialFunctions.Pow.NNReal
import Verif.Proofs.Num

/-! `Unitary` operations in exact arithmetic without clean-up (`τ = 0`), and facts for every arithmetic. -/

namespace Stoq

open Matrix

namespace Arith

theorem exact_tau (t : ℝ) : (exact t).tau = t := rfl
theorem exact_matmul (t : ℝ) (a b : Arr) : (exact t).matmul a b = a.matmul b := rfl
theorem exact_kron (t : ℝ) (a b : Arr) : (exact t).kron a b = a.kron b := rfl
theorem exact_balanced (t : ℝ) (d : ℕ) (a : Arr) :
    (exact t).balanced d a = a.smul ((1 / a.det) ^ (1 / (d : ℂ))) := rfl
theorem exact_distance (t : ℝ) (d : ℕ) (a : Arr) : (exact t).distance d a = 1 - ‖a.trace‖ / d := rfl
theorem exact_gate (t : ℝ) (n : String) (l : List ℝ) (a : Arr) : (exact t).gate n l a = a := rfl
theorem exact_evolved (t : ℝ) (h : Arr) (x : ℝ) (a : Arr) : (exact t).evolved h x a = a := rfl

theorem zero_eq : (0 : Arith) = exact 0 := rfl
@[simp] theorem zero_tau : (0 : Arith).tau = 0 := rfl
@[simp] theorem zero_matmul (a b : Arr) : (0 : Arith).matmul a b = a.matmul b := rfl
@[simp] theorem zero_evolved (h : Arr) (x : ℝ) (a : Arr) : (0 : Arith).evolved h x a = a := rfl
@[simp] theorem zero_kron (a b : Arr) : (0 : Arith).kron a b = a.kron b := rfl
@[simp] theorem zero_balanced (d : ℕ) (a : Arr) :
    (0 : Arith).balanced d a = a.smul ((1 / a.det) ^ (1 / (d : ℂ))) := rfl
@[simp] theorem zero_distance (d : ℕ) (a : Arr) : (0 : Arith).distance d a = 1 - ‖a.trace‖ / d := rfl
@[simp] theorem zero_gate (n : String) (l : List ℝ) (a : Arr) : (0 : Arith).gate n l a = a := rfl

end Arith

namespace Unitary

/-- The global phase factor is a `d`-th root of `1 / det`. -/
theorem phase_pow {d : ℕ} (hd : 0 < d) (z : ℂ) : ((1 / z) ^ (1 / (d : ℂ))) ^ d = 1 / z := by
  rw [one_div (d : ℂ)]
  exact Complex.cpow_nat_inv_pow _ hd.ne'

theorem phase_norm {d : ℕ} (hd : 0 < d) {z : ℂ} (hz : ‖z‖ = 1) : ‖(1 / z) ^ (1 / (d : ℂ))‖ = 1 := by
  have h := congrArg norm (phase_pow hd z)
  rw [norm_pow, norm_div, norm_one, hz, div_one] at h
  exact (pow_eq_one_iff_of_nonneg (norm_nonneg _) hd.ne').mp h

theorem norm_det_of_unitary {d : ℕ} {M : Matrix (Fin d) (Fin d) ℂ} (h : M ∈ unitaryGroup (Fin d) ℂ) :
    ‖M.det‖ = 1 := by
  have h1 := Matrix.det_of_mem_unitary h
  have h2 := _root_.Unitary.mem_iff.mp h1
  have h3 := congrArg norm h2.1
  simp at h3
  nlinarith [norm_nonneg M.det]

/-- Everything about a successful constructor call, for every arithmetic. -/
theorem new_eq_ok {τ : Arith} {d : ℕ} {m : Option Arr} {n : Option String} {pd : Option ParamDict}
    {inv : Bool} {ap : List ℕ} {u : Unitary} :
    Unitary.new τ d m n pd inv ap = .ok u ↔
      0 < d ∧ ((m.getD (Arr.identity d)).clean τ.tau).rows = d ∧ ((m.getD (Arr.identity d)).clean τ.tau).cols = d ∧
      allclose (τ.matmul ((m.getD (Arr.identity d)).clean τ.tau) ((m.getD (Arr.identity d)).clean τ.tau).ct)
        (Arr.identity d) ∧
      ((m.getD (Arr.identity d)).clean τ.tau).det ≠ 0 ∧
      u = { matrix := τ.balanced d ((m.getD (Arr.identity d)).clean τ.tau),
            operationName := n.getD "U", parameterDict := pd.getD [], isInverse := inv, applyTo := ap } := by
  unfold Unitary.new
  simp only [assertE_bind_eq_ok, raiseUnless_bind_eq_ok, pure_except, Except.ok.injEq]
  constructor
  · rintro ⟨h1, ⟨h2, h3⟩, h4, h5, h6⟩
    exact ⟨h1, h2, h3, h4, h5, h6.symm⟩
  · rintro ⟨h1, h2, h3, h4, h5, h6⟩
    exact ⟨h1, ⟨h2, h3⟩, h4, h5, h6.symm⟩

/-- Construction from an exactly unitary matrix. -/
theorem new_exact {d : ℕ} (hd : 0 < d) {a : Arr} (hr : a.rows = d) (hc : a.cols = d)
    (hU : a.toMatrix d ∈ unitaryGroup (Fin d) ℂ) (n : Option String) (pd : Option ParamDict)
    (inv : Bool) (ap : List ℕ) :
    ∃ c : ℂ, ‖c‖ = 1 ∧ c ^ d * (a.toMatrix d).det = 1 ∧ (a.det = 1 → c = 1) ∧
      Unitary.new 0 d (some a) n pd inv ap =
        .ok { matrix := a.smul c, operationName := n.getD "U", parameterDict := pd.getD [],
              isInverse := inv, applyTo := ap } := by
  have hdet : ‖a.det‖ = 1 := by rw [Arr.det_eq hr]; exact norm_det_of_unitary hU
  have hne : a.det ≠ 0 := by intro h; simp [h] at hdet
  refine ⟨(1 / a.det) ^ (1 / (d : ℂ)), phase_norm hd hdet, ?_, ?_, ?_⟩
  · rw [phase_pow hd, ← Arr.det_eq hr]; field_simp
  · intro h; rw [h]; simp
  · rw [new_eq_ok]
    simp only [Option.getD_some, Arith.zero_tau, Arr.clean_zero]
    refine ⟨hd, hr, hc, ?_, hne, rfl⟩
    rw [Arith.zero_matmul]
    apply Arr.allclose_of_eq (d := d)
    · exact hr
    · exact hr
    · rw [Arr.toMatrix_matmul hc, Arr.toMatrix_ct, Arr.toMatrix_identity]
      exact mem_unitaryGroup_iff.mp hU

/-- Construction from a special unitary matrix stores the matrix itself. -/
theorem new_su {d : ℕ} (hd : 0 < d) {a : Arr} (hr : a.rows = d) (hc : a.cols = d)
    (hU : a.toMatrix d ∈ specialUnitaryGroup (Fin d) ℂ) (n : Option String) (pd : Option ParamDict)
    (inv : Bool) (ap : List ℕ) :
    Unitary.new 0 d (some a) n pd inv ap =
        .ok { matrix := a, operationName := n.getD "U", parameterDict := pd.getD [],
              isInverse := inv, applyTo := ap } := by
  rw [mem_specialUnitaryGroup_iff] at hU
  obtain ⟨c, -, -, h1, h2⟩ := new_exact hd hr hc hU.1 n pd inv ap
  have : c = 1 := h1 (by rw [Arr.det_eq hr]; exact hU.2)
  rw [h2, this, Arr.smul_one]

theorem new_none {τ : Arith} {d : ℕ} (n : Option String) (pd : Option ParamDict)
    (inv : Bool) (ap : List ℕ) :
    Unitary.new τ d none n pd inv ap = Unitary.new τ d (some (Arr.identity d)) n pd inv ap := rfl

/-- Stored matrices always have the declared shape. -/
theorem new_shape {τ : Arith} {d : ℕ} {m : Option Arr} {n : Option String} {pd : Option ParamDict}
    {inv : Bool} {ap : List ℕ} {u : Unitary} (h : Unitary.new τ d m n pd inv ap = .ok u) :
    0 < d ∧ u.matrix.rows = d ∧ u.matrix.cols = d := by
  obtain ⟨hd, h2, h3, -, h5, rfl⟩ := new_eq_ok.mp h
  exact ⟨hd, h2, h3⟩

/-- Exact arithmetic stores matrices of determinant one, for every clean-up threshold. -/
theorem new_det {t : ℝ} {d : ℕ} {m : Option Arr} {n : Option String} {pd : Option ParamDict}
    {inv : Bool} {ap : List ℕ} {u : Unitary} (h : Unitary.new (.exact t) d m n pd inv ap = .ok u) :
    (u.matrix.toMatrix d).det = 1 := by
  obtain ⟨hd, h2, h3, -, h5, rfl⟩ := new_eq_ok.mp h
  rw [Arith.exact_balanced, Arr.toMatrix_smul, Matrix.det_smul, Fintype.card_fin, phase_pow hd, ← Arr.det_eq h2]
  rw [Arith.exact_tau] at h5 ⊢
  field_simp

end Unitary

namespace Unitary

variable {d : ℕ} {u v : Unitary}

theorem Exact.unitary (h : u.Exact d) : u.matrix.toMatrix d ∈ unitaryGroup (Fin d) ℂ :=
  (mem_specialUnitaryGroup_iff.mp h.2.2.2).1

theorem Exact.det (h : u.Exact d) : (u.matrix.toMatrix d).det = 1 :=
  (mem_specialUnitaryGroup_iff.mp h.2.2.2).2

theorem Exact.rows (h : u.Exact d) : u.matrix.rows = d := h.2.1
theorem Exact.cols (h : u.Exact d) : u.matrix.cols = d := h.2.2.1
theorem Exact.pos (h : u.Exact d) : 0 < d := h.1
theorem Exact.dim (h : u.Exact d) : u.getDimension = d := h.2.1
theorem Exact.holds (h : u.Exact d) : u.Holds (u.matrix.toMatrix d) := ⟨h.2.1, h.2.2.1, rfl⟩

theorem Exact.dim_unique {e : ℕ} (h : u.Exact d) (h' : u.Exact e) : d = e := by
  rw [← h.dim, h'.dim]

/-- The object built by `Unitary(d, a)` when `a` is special unitary. -/
def plain (a : Arr) : Unitary := ⟨a, "U", [], false, []⟩

theorem identity_eq (hd : 0 < d) :
    Unitary.identity 0 d = .ok { matrix := Arr.identity d, operationName := "I", parameterDict := [],
                                 isInverse := false, applyTo := [] } := by
  unfold Unitary.identity
  rw [new_su hd rfl rfl]
  · rfl
  · rw [Arr.toMatrix_identity]; exact one_mem _

theorem new_default_eq (hd : 0 < d) :
    Unitary.new 0 d = .ok (plain (Arr.identity d)) := by
  rw [new_none, new_su hd rfl rfl]
  · rfl
  · rw [Arr.toMatrix_identity]; exact one_mem _

theorem ct_mem_su {M : Matrix (Fin d) (Fin d) ℂ} (h : M ∈ specialUnitaryGroup (Fin d) ℂ) :
    Mᴴ ∈ specialUnitaryGroup (Fin d) ℂ := by
  rw [mem_specialUnitaryGroup_iff] at *
  refine ⟨?_, ?_⟩
  · rw [← star_eq_conjTranspose]
    exact _root_.Unitary.star_mem h.1
  · rw [det_conjTranspose, h.2, star_one]

theorem inverse_eq (h : u.Exact d) :
    u.inverse 0 = .ok { u with matrix := u.matrix.ct, isInverse := !u.isInverse } := by
  unfold Unitary.inverse
  rw [h.dim, new_su h.pos (by exact h.cols) (by exact h.rows)]
  · rfl
  · rw [getMatrix, Arr.toMatrix_ct]; exact ct_mem_su h.2.2.2

theorem leftMultiply_eq (hu : u.Exact d) (hv : v.Exact d) :
    u.leftMultiply 0 v = .ok (plain (v.matrix.matmul u.matrix)) := by
  unfold Unitary.leftMultiply
  rw [hu.dim, hv.dim, assertE_of rfl, ok_bind, new_su hu.pos (by exact hv.rows) (by exact hu.cols)]
  · rfl
  · rw [getMatrix, getMatrix, Arith.zero_matmul, Arr.toMatrix_matmul hv.cols]; exact mul_mem hv.2.2.2 hu.2.2.2

theorem rightMultiply_eq (hu : u.Exact d) (hv : v.Exact d) :
    u.rightMultiply 0 v = .ok (plain (u.matrix.matmul v.matrix)) := by
  unfold Unitary.rightMultiply
  rw [hu.dim, hv.dim, assertE_of rfl, ok_bind, new_su hu.pos (by exact hu.rows) (by exact hv.cols)]
  · rfl
  · rw [getMatrix, getMatrix, Arith.zero_matmul, Arr.toMatrix_matmul hu.cols]; exact mul_mem hu.2.2.2 hv.2.2.2

theorem kron_mem_su {m n : ℕ} {A : Matrix (Fin m) (Fin m) ℂ} {B : Matrix (Fin n) (Fin n) ℂ}
    (hA : A ∈ specialUnitaryGroup (Fin m) ℂ) (hB : B ∈ specialUnitaryGroup (Fin n) ℂ) :
    ((kroneckerMap (· * ·) A B).submatrix finProdFinEquiv.symm finProdFinEquiv.symm :
      Matrix (Fin (m * n)) (Fin (m * n)) ℂ) ∈ specialUnitaryGroup (Fin (m * n)) ℂ := by
  rw [mem_specialUnitaryGroup_iff] at *
  exact ⟨kron_mem_unitary hA.1 hB.1, by rw [det_kron_one, hA.2, hB.2]; simp⟩

theorem tensor_eq {m n : ℕ} (hu : u.Exact m) (hv : v.Exact n) :
    u.tensor 0 v = .ok ⟨u.matrix.kron v.matrix, u.operationName ++ "--" ++ v.operationName,
      u.parameterDict, false, u.applyTo⟩ := by
  unfold Unitary.tensor
  rw [hu.dim, hv.dim, Nat.mul_comm n m, new_su (Nat.mul_pos hu.pos hv.pos)]
  · rfl
  · simp [getMatrix, Arr.kron, hu.rows, hv.rows]
  · simp [getMatrix, Arr.kron, hu.cols, hv.cols]
  · rw [getMatrix, getMatrix, Arith.zero_kron, Arr.toMatrix_kron hv.rows hv.cols]; exact kron_mem_su hu.2.2.2 hv.2.2.2

theorem distanceFromArr_eq (hu : u.Exact d) {a : Arr} (hr : a.rows = d) (hc : a.cols = d) :
    u.distanceFromArr 0 a = .ok (1 - overlap (u.matrix.toMatrix d) (a.toMatrix d)) := by
  unfold Unitary.distanceFromArr
  rw [hu.dim, assertE_of ⟨hr, hc⟩, ok_bind, inverse_eq hu, ok_bind]
  simp only [pure_except, getMatrix, overlap, Arith.zero_matmul, Arith.zero_distance]
  rw [Arr.trace_eq (d := d) (by exact hu.cols), Arr.toMatrix_matmul (by exact hu.rows), Arr.toMatrix_ct]

theorem distanceFrom_eq (hu : u.Exact d) (hv : v.Exact d) :
    u.distanceFrom 0 v = .ok (1 - overlap (u.matrix.toMatrix d) (v.matrix.toMatrix d)) :=
  distanceFromArr_eq hu hv.rows hv.cols

theorem closeTo_some_eq (hu : u.Exact d) (hv : v.Exact d) (t : ℝ) :
    u.closeTo 0 v (some t) = .ok (open Classical in
      decide (t ≤ overlap (u.matrix.toMatrix d) (v.matrix.toMatrix d))) := by
  unfold Unitary.closeTo Unitary.closeToArr
  rw [getMatrix, distanceFromArr_eq hu hv.rows hv.cols, ok_bind]
  simp only [pure_except, sub_le_sub_iff_left]

theorem closeTo_none_eq (hu : u.Exact d) (hv : v.Exact d) :
    u.closeTo 0 v none = .ok (open Classical in
      decide (|1 - overlap (u.matrix.toMatrix d) (v.matrix.toMatrix d)| ≤ 1e-8)) := by
  unfold Unitary.closeTo Unitary.closeToArr
  rw [getMatrix, distanceFromArr_eq hu hv.rows hv.cols, ok_bind]
  simp only [isclose, sub_zero, norm_zero, mul_zero, add_zero, pure_except, Complex.norm_real,
    Real.norm_eq_abs]

end Unitary

end Stoq
