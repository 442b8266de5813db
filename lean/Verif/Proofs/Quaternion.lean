import Verif.Proofs.Gms
import Verif.Proofs.Trotter
import Verif.Proofs.Drift

/-! # Matrices of one qubit as quaternions, and time evolutions under `X` and `Y` -/

namespace Stoq

open Matrix Complex

open scoped Matrix.Norms.L2Operator

/-- `p + i (x X + y Y + z Z)`. -/
noncomputable def quat (p x y z : ℝ) : Matrix (Fin 2) (Fin 2) ℂ :=
  !![(p : ℂ) + I * z, y + I * x; -y + I * x, p - I * z]

namespace quat

theorem mul (p x y z p' x' y' z' : ℝ) : quat p x y z * quat p' x' y' z' =
    quat (p * p' - x * x' - y * y' - z * z') (p * x' + p' * x - (y * z' - z * y')) (p * y' + p' * y - (z * x' - x * z'))
      (p * z' + p' * z - (x * y' - y * x')) := by
  ext i j
  fin_cases i <;> fin_cases j <;> simp [quat, Matrix.mul_apply, Fin.sum_univ_two] <;> ring_nf <;>
    simp only [I_sq] <;> ring

theorem ct (p x y z : ℝ) : (quat p x y z)ᴴ = quat p (-x) (-y) (-z) := by
  ext i j
  fin_cases i <;> fin_cases j <;> simp [quat, Matrix.conjTranspose_apply]

theorem sub (p x y z p' x' y' z' : ℝ) : quat p x y z - quat p' x' y' z' = quat (p - p') (x - x') (y - y') (z - z') := by
  ext i j
  fin_cases i <;> fin_cases j <;> simp [quat] <;> ring

theorem trace (p x y z : ℝ) : (quat p x y z).trace = 2 * p := by
  simp [quat, Matrix.trace_fin_two]; ring

theorem one : quat 1 0 0 0 = 1 := by
  ext i j
  fin_cases i <;> fin_cases j <;> simp [quat]

theorem norm_sq (p x y z : ℝ) : ‖quat p x y z‖ ^ 2 = p ^ 2 + x ^ 2 + y ^ 2 + z ^ 2 := by
  have h : quat p x y z * star (quat p x y z) = (p ^ 2 + x ^ 2 + y ^ 2 + z ^ 2) • (1 : Matrix (Fin 2) (Fin 2) ℂ) := by
    rw [star_eq_conjTranspose, ct, mul, ← one]
    ext i j
    fin_cases i <;> fin_cases j <;> simp [quat] <;> ring
  rw [pow_two, ← CStarRing.norm_self_mul_star, h, norm_smul, norm_one, mul_one, Real.norm_of_nonneg (by positivity)]

theorem norm_le {p x y z ε : ℝ} (hε : 0 ≤ ε) (h : p ^ 2 + x ^ 2 + y ^ 2 + z ^ 2 ≤ ε ^ 2) : ‖quat p x y z‖ ≤ ε := by
  refine abs_le_of_sq_le_sq' ?_ hε |>.2
  rw [norm_sq]; exact h

theorem unitary {p x y z : ℝ} (h : p ^ 2 + x ^ 2 + y ^ 2 + z ^ 2 = 1) : quat p x y z ∈ unitaryGroup (Fin 2) ℂ := by
  rw [mem_unitaryGroup_iff, star_eq_conjTranspose, ct, mul, ← one]
  have h1 : p * p - x * -x - y * -y - z * -z = 1 := by rw [← h]; ring
  rw [h1]
  congr 1 <;> ring

theorem re_overlap (p x y z p' x' y' z' : ℝ) :
    ((quat p x y z)ᴴ * quat p' x' y' z').trace.re / 2 = p * p' + x * x' + y * y' + z * z' := by
  rw [ct, mul, trace, ← ofReal_ofNat, ← ofReal_mul, ofReal_re]
  ring

theorem overlap_eq (p x y z p' x' y' z' : ℝ) :
    overlap (quat p x y z) (quat p' x' y' z') = |p * p' + x * x' + y * y' + z * z'| := by
  unfold overlap
  rw [ct, mul, trace, ← ofReal_ofNat, ← ofReal_mul, norm_real, Real.norm_eq_abs, abs_mul]
  rw [abs_of_pos (by norm_num : (0 : ℝ) < 2)]
  push_cast
  rw [mul_div_cancel_left₀ _ (by norm_num : (2 : ℝ) ≠ 0)]
  congr 1
  ring

/-- Time evolution under `a X + b Y`. -/
theorem evolution_xy {a b t c : ℝ} (hc : c ≠ 0) (h : c ^ 2 = (a * t) ^ 2 + (b * t) ^ 2) :
    evolution ((a : ℂ) • Gate.X + (b : ℂ) • Gate.Y) t =
      quat (Real.cos c) (a * t * (Real.sin c / c)) (b * t * (Real.sin c / c)) 0 := by
  set P : Matrix (Fin 2) (Fin 2) ℂ := ((a * t / c : ℝ) : ℂ) • Gate.X + ((b * t / c : ℝ) : ℂ) • Gate.Y with hP
  have hPm : P = !![0, ((a * t / c : ℝ) : ℂ) - I * ((b * t / c : ℝ) : ℂ); ((a * t / c : ℝ) : ℂ) + I * ((b * t / c : ℝ) : ℂ), 0] := by
    rw [hP]
    ext i j
    fin_cases i <;> fin_cases j <;> simp [Gate.X, Gate.Y] <;> ring
  have hs : (a * t / c) ^ 2 + (b * t / c) ^ 2 = 1 := by
    rw [div_pow, div_pow, ← add_div, ← h, div_self (by positivity)]
  have hPP : P * P = 1 := by
    have hs' : ((a * t / c : ℝ) : ℂ) ^ 2 + ((b * t / c : ℝ) : ℂ) ^ 2 = 1 := by exact_mod_cast hs
    rw [hPm]
    ext i j
    fin_cases i <;> fin_cases j <;> simp [Matrix.mul_apply, Fin.sum_univ_two] <;> push_cast at hs' ⊢ <;>
      ring_nf at hs' ⊢ <;> simp only [I_sq] <;> linear_combination hs'
  have e : evolution ((a : ℂ) • Gate.X + (b : ℂ) • Gate.Y) t = Gate.rot P (-2 * c) := by
    rw [Gate.rot_eq_exp hPP]
    unfold evolution
    congr 1
    rw [hP, smul_add, smul_add, smul_smul, smul_smul, smul_smul, smul_smul]
    have hc' : (c : ℂ) ≠ 0 := by exact_mod_cast hc
    congr 2 <;> push_cast <;> field_simp
  rw [e, hPm]
  unfold Gate.rot
  rw [show -2 * c / 2 = -c by ring, Real.cos_neg, Real.sin_neg]
  ext i j
  fin_cases i <;> fin_cases j <;> simp [quat] <;> ring_nf <;> simp only [I_sq] <;> ring

theorem evolution_x (a t : ℝ) : evolution ((a : ℂ) • Gate.X) t = quat (Real.cos (a * t)) (Real.sin (a * t)) 0 0 := by
  by_cases h : a * t = 0
  · have : evolution ((a : ℂ) • Gate.X) t = 1 := by
      unfold evolution
      rw [smul_smul, show I * (t : ℂ) * a = I * ((a * t : ℝ) : ℂ) by push_cast; ring, h]
      simp
    rw [this, h, Real.cos_zero, Real.sin_zero, one]
  · have := evolution_xy (a := a) (b := 0) (t := t) (c := a * t) h (by ring)
    rw [ofReal_zero, zero_smul, add_zero] at this
    rw [this, mul_div_cancel₀ _ h]
    simp

theorem evolution_y (b t : ℝ) : evolution ((b : ℂ) • Gate.Y) t = quat (Real.cos (b * t)) 0 (Real.sin (b * t)) 0 := by
  by_cases h : b * t = 0
  · have : evolution ((b : ℂ) • Gate.Y) t = 1 := by
      unfold evolution
      rw [smul_smul, show I * (t : ℂ) * b = I * ((b * t : ℝ) : ℂ) by push_cast; ring, h]
      simp
    rw [this, h, Real.cos_zero, Real.sin_zero, one]
  · have := evolution_xy (a := 0) (b := b) (t := t) (c := b * t) h (by ring)
    rw [ofReal_zero, zero_smul, zero_add] at this
    rw [this, mul_div_cancel₀ _ h]
    simp

end quat

/-! ## A triangle inequality for overlaps -/

/-- Two unitary matrices that are both close to a third are close to each other. -/
theorem overlap_triangle {d : ℕ} (hd : 0 < d) {A B S : Matrix (Fin d) (Fin d) ℂ} (hA : A ∈ unitaryGroup (Fin d) ℂ)
    (hB : B ∈ unitaryGroup (Fin d) ℂ) (hS : S ∈ unitaryGroup (Fin d) ℂ) {δ : ℝ} (h1 : 1 - overlap A S ≤ δ)
    (h2 : 1 - overlap B S ≤ δ) : 1 - overlap A B ≤ 4 * δ := by
  have hdr : (0 : ℝ) < d := by exact_mod_cast hd
  -- phases that make the traces real
  have phase : ∀ X : Matrix (Fin d) (Fin d) ℂ, ∃ c : ℂ, ‖c‖ = 1 ∧ (((c • X)ᴴ * S).trace.re / d = overlap X S) := by
    intro X
    obtain ⟨c, hc, h⟩ : ∃ c : ℂ, ‖c‖ = 1 ∧ c * (Xᴴ * S).trace = ‖(Xᴴ * S).trace‖ := by
      by_cases h0 : (Xᴴ * S).trace = 0
      · exact ⟨1, by simp, by simp [h0]⟩
      · refine ⟨(‖(Xᴴ * S).trace‖ : ℂ) / (Xᴴ * S).trace, ?_, ?_⟩
        · rw [norm_div, norm_real, norm_norm, div_self (norm_ne_zero_iff.mpr h0)]
        · field_simp
    refine ⟨star c, by rw [norm_star, hc], ?_⟩
    rw [conjTranspose_smul, star_star, smul_mul_assoc, trace_smul, smul_eq_mul, h, ofReal_re]
    rfl
  -- the square of the Frobenius distance
  have frob : ∀ {X Y : Matrix (Fin d) (Fin d) ℂ}, X ∈ unitaryGroup (Fin d) ℂ → Y ∈ unitaryGroup (Fin d) ℂ →
      ∑ i, ∑ j, ‖(X - Y) i j‖ ^ 2 = 2 * d * (1 - (Xᴴ * Y).trace.re / d) := by
    intro X Y hX hY
    have e : ∀ M : Matrix (Fin d) (Fin d) ℂ, ∑ i, ∑ j, ‖M i j‖ ^ 2 = (Mᴴ * M).trace.re := by
      intro M
      rw [Matrix.trace, re_sum, Finset.sum_comm]
      refine Finset.sum_congr rfl fun j _ => ?_
      rw [diag_apply, Matrix.mul_apply, re_sum]
      refine Finset.sum_congr rfl fun i _ => ?_
      rw [conjTranspose_apply, star_def, ← normSq_eq_conj_mul_self, ofReal_re, normSq_eq_norm_sq]
    have hX' : Xᴴ * X = 1 := mem_unitaryGroup_iff'.mp hX
    have hY' : Yᴴ * Y = 1 := mem_unitaryGroup_iff'.mp hY
    have hYX : (Yᴴ * X).trace.re = (Xᴴ * Y).trace.re := by
      have : (Yᴴ * X).trace = star ((Xᴴ * Y).trace) := by
        rw [← trace_conjTranspose, conjTranspose_mul, conjTranspose_conjTranspose]
      rw [this, star_def, conj_re]
    rw [e, conjTranspose_sub, sub_mul, mul_sub, mul_sub, hX', hY', trace_sub, trace_sub, trace_sub, trace_one,
      Fintype.card_fin, sub_re, sub_re, sub_re, hYX, natCast_re]
    field_simp
    ring
  obtain ⟨c, hc, ec⟩ := phase A
  obtain ⟨e, he, ee⟩ := phase B
  have hcA : c • A ∈ unitaryGroup (Fin d) ℂ := smul_mem_unitary hc hA
  have heB : e • B ∈ unitaryGroup (Fin d) ℂ := smul_mem_unitary he hB
  have f1 := frob hcA hS
  have f2 := frob heB hS
  have f3 := frob hcA heB
  rw [ec] at f1
  rw [ee] at f2
  have key : ∑ i, ∑ j, ‖(c • A - e • B) i j‖ ^ 2 ≤
      2 * (∑ i, ∑ j, ‖(c • A - S) i j‖ ^ 2) + 2 * (∑ i, ∑ j, ‖(e • B - S) i j‖ ^ 2) := by
    rw [Finset.mul_sum, Finset.mul_sum, ← Finset.sum_add_distrib]
    refine Finset.sum_le_sum fun i _ => ?_
    rw [Finset.mul_sum, Finset.mul_sum, ← Finset.sum_add_distrib]
    refine Finset.sum_le_sum fun j _ => ?_
    have h3 : (c • A - e • B) i j = (c • A - S) i j - (e • B - S) i j := by simp only [Matrix.sub_apply]; ring
    rw [h3]
    have h4 := norm_sub_le ((c • A - S) i j) ((e • B - S) i j)
    nlinarith [norm_nonneg ((c • A - S) i j), norm_nonneg ((e • B - S) i j),
      norm_nonneg ((c • A - S) i j - (e • B - S) i j), sq_nonneg (‖(c • A - S) i j‖ - ‖(e • B - S) i j‖)]
  rw [f1, f2, f3] at key
  have h5 : ((c • A)ᴴ * (e • B)).trace.re / d ≤ overlap A B := by
    rw [← overlap_smul_left hc, ← overlap_smul_right (A := c • A) he]
    exact div_le_div_of_nonneg_right (Complex.re_le_norm _) (Nat.cast_nonneg d)
  have h6 : 1 - ((c • A)ᴴ * (e • B)).trace.re / d ≤ 4 * δ := by
    have : 2 * (d : ℝ) * (1 - ((c • A)ᴴ * (e • B)).trace.re / d) ≤ 2 * d * (4 * δ) := by
      refine key.trans ?_
      nlinarith
    exact le_of_mul_le_mul_left this (by positivity)
  linarith

end Stoq
