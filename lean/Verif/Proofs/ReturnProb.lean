import Mathlib.Analysis.InnerProductSpace.PiL2
import Verif.Proofs.Overlap

/-!
# Diagonal entries of a unitary matrix and its trace
-/

namespace Stoq

open Matrix

variable {d : ℕ} {A : Matrix (Fin d) (Fin d) ℂ}

theorem cauchy_schwarz {ι : Type*} [Fintype ι] (f g : ι → ℂ) :
    ‖∑ i, star (f i) * g i‖ ≤ √(∑ i, ‖f i‖ ^ 2) * √(∑ i, ‖g i‖ ^ 2) := by
  have h := norm_inner_le_norm (𝕜 := ℂ) (WithLp.toLp 2 f : EuclideanSpace ℂ ι) (WithLp.toLp 2 g)
  rw [EuclideanSpace.norm_eq, EuclideanSpace.norm_eq, PiLp.inner_apply] at h
  refine le_trans (le_of_eq ?_) h
  refine congrArg _ (Finset.sum_congr rfl fun i _ => ?_)
  simp [mul_comm]

theorem sum_norm_sq_col (hA : A ∈ unitaryGroup (Fin d) ℂ) (j : Fin d) : ∑ i, ‖A i j‖ ^ 2 = 1 := by
  have h1 := congrFun (congrFun (mem_unitaryGroup_iff'.mp hA) j) j
  rw [mul_apply, one_apply_eq] at h1
  have h2 : ((∑ x, ‖A x j‖ ^ 2 : ℝ) : ℂ) = 1 := by
    rw [← h1]
    push_cast
    refine Finset.sum_congr rfl fun x _ => ?_
    rw [star_apply, Complex.star_def, ← Complex.normSq_eq_conj_mul_self, Complex.normSq_eq_norm_sq]
    push_cast; rfl
  exact_mod_cast h2

theorem sum_norm_sq_row (hA : A ∈ unitaryGroup (Fin d) ℂ) (i : Fin d) : ∑ j, ‖A i j‖ ^ 2 = 1 := by
  have h := sum_norm_sq_col (A := star A) (mem_unitaryGroup_iff'.mpr (by
    rw [star_star]; exact mem_unitaryGroup_iff.mp hA)) i
  simpa [star_apply] using h

/-- Unitary matrices preserve the length of vectors. -/
theorem sum_norm_sq_mulVec (hA : A ∈ unitaryGroup (Fin d) ℂ) (w : Fin d → ℂ) :
    ∑ i, ‖(A *ᵥ w) i‖ ^ 2 = ∑ i, ‖w i‖ ^ 2 := by
  have key : ∀ v : Fin d → ℂ, ((∑ i, ‖v i‖ ^ 2 : ℝ) : ℂ) = star v ⬝ᵥ v := by
    intro v
    push_cast
    refine Finset.sum_congr rfl fun i _ => ?_
    rw [Pi.star_apply, Complex.star_def, ← Complex.normSq_eq_conj_mul_self, Complex.normSq_eq_norm_sq]
    push_cast; rfl
  have : ((∑ i, ‖(A *ᵥ w) i‖ ^ 2 : ℝ) : ℂ) = ((∑ i, ‖w i‖ ^ 2 : ℝ) : ℂ) := by
    rw [key, key, star_mulVec, dotProduct_mulVec, vecMul_vecMul, ← star_eq_conjTranspose,
      mem_unitaryGroup_iff'.mp hA, vecMul_one]
  exact_mod_cast this

/-- The mean of the return probabilities is at least the squared overlap with the identity. -/
theorem sq_trace_le (A : Matrix (Fin d) (Fin d) ℂ) : ‖A.trace‖ ^ 2 ≤ d * ∑ x, ‖A x x‖ ^ 2 := by
  have h := cauchy_schwarz (fun _ : Fin d => (1 : ℂ)) fun x => A x x
  simp only [star_one, one_mul, norm_one, one_pow, Finset.sum_const, Finset.card_univ, Fintype.card_fin,
    nsmul_eq_mul, mul_one] at h
  have h2 := pow_le_pow_left₀ (norm_nonneg _) h 2
  rw [mul_pow, Real.sq_sqrt (Nat.cast_nonneg _), Real.sq_sqrt (Finset.sum_nonneg fun x _ => sq_nonneg _)] at h2
  exact h2

/-- For an orthogonal projection `Q` and a unitary `A`, the trace of `Q A` is at most the rank of `Q`. -/
theorem norm_trace_projection_mul_le (hA : A ∈ unitaryGroup (Fin d) ℂ) {Q : Matrix (Fin d) (Fin d) ℂ}
    (h1 : Qᴴ = Q) (h2 : Q * Q = Q) {r : ℝ} (hr : Q.trace = r) : ‖(Q * A).trace‖ ≤ r := by
  have frob : ∀ B : Matrix (Fin d) (Fin d) ℂ, ((∑ p : Fin d × Fin d, ‖B p.1 p.2‖ ^ 2 : ℝ) : ℂ) = (Bᴴ * B).trace := by
    intro B
    push_cast
    rw [Fintype.sum_prod_type, Finset.sum_comm]
    refine Finset.sum_congr rfl fun j _ => ?_
    rw [diag_apply, mul_apply]
    refine Finset.sum_congr rfl fun i _ => ?_
    rw [conjTranspose_apply, Complex.star_def, ← Complex.normSq_eq_conj_mul_self, Complex.normSq_eq_norm_sq]
    push_cast; rfl
  have e1 : ∑ p : Fin d × Fin d, ‖Q p.1 p.2‖ ^ 2 = r := by
    have := frob Q
    rw [h1, h2, hr] at this
    exact_mod_cast this
  have e2 : ∑ p : Fin d × Fin d, ‖(Q * A) p.1 p.2‖ ^ 2 = r := by
    have := frob (Q * A)
    rw [conjTranspose_mul, h1, Matrix.mul_assoc, ← Matrix.mul_assoc Q, h2, trace_mul_comm, Matrix.mul_assoc,
      ← star_eq_conjTranspose, mem_unitaryGroup_iff.mp hA, mul_one, hr] at this
    exact_mod_cast this
  have h := cauchy_schwarz (fun p : Fin d × Fin d => Q p.1 p.2) fun p => (Q * A) p.1 p.2
  have e3 : ∑ p : Fin d × Fin d, star (Q p.1 p.2) * (Q * A) p.1 p.2 = (Q * A).trace := by
    have e4 : (Q * A).trace = (Qᴴ * (Q * A)).trace := by rw [h1, ← Matrix.mul_assoc, h2]
    rw [e4, Fintype.sum_prod_type, Finset.sum_comm]
    refine Finset.sum_congr rfl fun j _ => ?_
    rw [diag_apply, mul_apply]
    rfl
  rw [e1, e2, e3] at h
  have hr0 : 0 ≤ r := by rw [← e1]; exact Finset.sum_nonneg fun p _ => sq_nonneg _
  rwa [Real.mul_self_sqrt hr0] at h

/-- A small diagonal entry of a unitary matrix lowers its trace twice. -/
theorem norm_trace_le_diag (hA : A ∈ unitaryGroup (Fin d) ℂ) (x : Fin d) : ‖A.trace‖ ≤ d - 2 + 2 * ‖A x x‖ := by
  set s2 : ℝ := ∑ j ∈ Finset.univ.erase x, ‖A x j‖ ^ 2 with hs2
  have hrow : ‖A x x‖ ^ 2 + s2 = 1 := by
    rw [hs2, Finset.add_sum_erase _ (fun j => ‖A x j‖ ^ 2) (Finset.mem_univ x)]
    exact sum_norm_sq_row hA x
  have hs0 : 0 ≤ s2 := Finset.sum_nonneg fun j _ => sq_nonneg _
  rcases hs0.eq_or_lt with hz | hpos
  · have : ‖A x x‖ = 1 := by
      rw [← hz, add_zero] at hrow
      nlinarith [norm_nonneg (A x x)]
    rw [this]
    linarith [norm_trace_le hA]
  -- the direction of the rest of the row
  set s := √s2 with hs
  have hspos : 0 < s := Real.sqrt_pos.mpr hpos
  have hss : s ^ 2 = s2 := Real.sq_sqrt hs0
  set w : Fin d → ℂ := fun j => if j = x then 0 else star (A x j) / s with hw
  have hwx : w x = 0 := by simp [hw]
  have hwn : ∑ j, ‖w j‖ ^ 2 = 1 := by
    rw [← Finset.add_sum_erase _ _ (Finset.mem_univ x), hwx]
    have : ∀ j ∈ Finset.univ.erase x, ‖w j‖ ^ 2 = ‖A x j‖ ^ 2 / s2 := by
      intro j hj
      simp only [hw, if_neg (Finset.ne_of_mem_erase hj), norm_div, norm_star, Complex.norm_real,
        Real.norm_of_nonneg hspos.le, div_pow, hss]
    rw [Finset.sum_congr rfl this, ← Finset.sum_div, ← hs2, div_self hpos.ne']
    simp
  have hww : star w ⬝ᵥ w = 1 := by
    have : ((∑ j, ‖w j‖ ^ 2 : ℝ) : ℂ) = star w ⬝ᵥ w := by
      push_cast
      refine Finset.sum_congr rfl fun i _ => ?_
      rw [Pi.star_apply, Complex.star_def, ← Complex.normSq_eq_conj_mul_self, Complex.normSq_eq_norm_sq]
      push_cast; rfl
    rw [← this, hwn, Complex.ofReal_one]
  have hAwx : (A *ᵥ w) x = s := by
    have : (A *ᵥ w) x = ((∑ j ∈ Finset.univ.erase x, ‖A x j‖ ^ 2 / s : ℝ) : ℂ) := by
      unfold mulVec dotProduct
      rw [← Finset.add_sum_erase _ _ (Finset.mem_univ x), hwx, mul_zero, zero_add]
      push_cast
      refine Finset.sum_congr rfl fun j hj => ?_
      simp only [hw, if_neg (Finset.ne_of_mem_erase hj)]
      rw [mul_div_assoc', Complex.star_def, Complex.mul_conj, Complex.normSq_eq_norm_sq]
      push_cast; rfl
    rw [this, ← Finset.sum_div, ← hs2, ← hss, sq, mul_div_assoc, div_self hspos.ne', mul_one]
  have hrest : ∑ j ∈ Finset.univ.erase x, ‖(A *ᵥ w) j‖ ^ 2 = ‖A x x‖ ^ 2 := by
    have h := sum_norm_sq_mulVec hA w
    rw [hwn, ← Finset.add_sum_erase _ _ (Finset.mem_univ x), hAwx, Complex.norm_real,
      Real.norm_of_nonneg hspos.le, hss] at h
    linarith
  have hwAw : ‖star w ⬝ᵥ A *ᵥ w‖ ≤ ‖A x x‖ := by
    have h := cauchy_schwarz w fun j => if j = x then 0 else (A *ᵥ w) j
    have e1 : ∑ i, star (w i) * (if i = x then 0 else (A *ᵥ w) i) = star w ⬝ᵥ A *ᵥ w := by
      refine Finset.sum_congr rfl fun i _ => ?_
      by_cases hi : i = x
      · rw [if_pos hi, hi, Pi.star_apply, hwx]; simp
      · rw [if_neg hi]; rfl
    have e2 : ∑ i, ‖(if i = x then 0 else (A *ᵥ w) i : ℂ)‖ ^ 2 = ‖A x x‖ ^ 2 := by
      rw [← Finset.add_sum_erase _ _ (Finset.mem_univ x), ← hrest]
      simp only [if_pos, norm_zero, ne_eq, OfNat.ofNat_ne_zero, not_false_eq_true, zero_pow, zero_add]
      exact Finset.sum_congr rfl fun j hj => by rw [if_neg (Finset.ne_of_mem_erase hj)]
    rw [e1, e2, hwn, Real.sqrt_one, one_mul, Real.sqrt_sq (norm_nonneg _)] at h
    exact h
  -- the projections
  set E : Matrix (Fin d) (Fin d) ℂ := vecMulVec (Pi.single x 1) (Pi.single x 1) with hE
  set P : Matrix (Fin d) (Fin d) ℂ := vecMulVec w (star w) with hP
  have hsx : star (Pi.single x (1 : ℂ) : Fin d → ℂ) = Pi.single x 1 := by
    ext j; by_cases hj : j = x <;> simp [hj]
  have hEE : E * E = E := by
    rw [hE, vecMulVec_mul_vecMulVec]
    simp
  have hPP : P * P = P := by
    rw [hP, vecMulVec_mul_vecMulVec, hww]
    simp
  have hEP : E * P = 0 := by
    rw [hE, hP, vecMulVec_mul_vecMulVec]
    simp [hwx]
  have hPE : P * E = 0 := by
    rw [hE, hP, vecMulVec_mul_vecMulVec]
    simp [hwx]
  have hEt : Eᴴ = E := by
    rw [hE, conjTranspose_vecMulVec, hsx]
  have hPt : Pᴴ = P := by
    rw [hP, conjTranspose_vecMulVec, star_star]
  have hEtr : E.trace = 1 := by rw [hE, trace_vecMulVec]; simp
  have hPtr : P.trace = 1 := by rw [hP, trace_vecMulVec, dotProduct_comm, hww]
  have hQ := norm_trace_projection_mul_le hA (Q := 1 - E - P) (r := d - 2)
    (by rw [conjTranspose_sub, conjTranspose_sub, conjTranspose_one, hEt, hPt])
    (by
      simp only [sub_mul, mul_sub, one_mul, mul_one, hEE, hPP, hEP, hPE]
      abel)
    (by rw [trace_sub, trace_sub, trace_one, hEtr, hPtr, Fintype.card_fin]; push_cast; ring)
  have hEA : (E * A).trace = A x x := by
    rw [hE, vecMulVec_mul, trace_vecMulVec]; simp
  have hPA : (P * A).trace = star w ⬝ᵥ A *ᵥ w := by
    rw [hP, vecMulVec_mul, trace_vecMulVec, dotProduct_comm, dotProduct_mulVec]
  have hsplit : A.trace = A x x + star w ⬝ᵥ A *ᵥ w + ((1 - E - P) * A).trace := by
    rw [sub_mul, sub_mul, one_mul, trace_sub, trace_sub, hEA, hPA]; ring
  rw [hsplit]
  calc _ ≤ ‖A x x‖ + ‖star w ⬝ᵥ A *ᵥ w‖ + ‖((1 - E - P) * A).trace‖ := norm_add₃_le
    _ ≤ ‖A x x‖ + ‖A x x‖ + (d - 2) := by gcongr
    _ = _ := by ring

end Stoq
