import Verif.Spec.PhaseFlip
import Verif.Proofs.Gates
import Verif.Proofs.Embed
import Verif.Proofs.ReturnProb

/-!
# Lemmas on the phase-flip code
-/

namespace Stoq.PhaseFlip

open Matrix Complex

theorem embed_Z (k : Fin 3) : embed 3 [k.val] Gate.Z =
    Matrix.diagonal fun c : Fin (2 ^ 3) => if qubit 3 k c = 1 then (-1 : ℂ) else 1 := by
  have h : ∀ k : Fin 3, ∀ r c : Fin (2 ^ 3), AgreeOff 3 [k.val] r c → (gather 3 [k.val] r = gather 3 [k.val] c ↔ r = c) := by
    decide
  have h2 : ∀ r c : Fin (2 ^ 3), r = c → AgreeOff 3 [k.val] r c := by
    rintro r c rfl q _ _; rfl
  have hg : ∀ c : Fin (2 ^ 3), gather 3 [k.val] c = qubit 3 k c := by intro c; simp [gather]
  have hZ : ∀ i j : Fin 2, Gate.Z i j = if i = j then (if i.val = 1 then (-1 : ℂ) else 1) else 0 := by
    intro i j; fin_cases i <;> fin_cases j <;> simp [Gate.Z]
  ext r c
  simp only [embed, Matrix.diagonal_apply]
  by_cases hrc : r = c
  · subst hrc
    rw [if_pos (h2 _ _ rfl), if_pos rfl]
    have := hZ ⟨gather 3 [k.val] r, gather_lt 3 [k.val] r⟩ ⟨gather 3 [k.val] r, gather_lt 3 [k.val] r⟩
    rw [if_pos rfl] at this
    simpa [hg] using this
  · rw [if_neg hrc]
    split_ifs with ha
    · have := hZ ⟨gather 3 [k.val] r, gather_lt 3 [k.val] r⟩ ⟨gather 3 [k.val] c, gather_lt 3 [k.val] c⟩
      rw [if_neg] at this
      · exact this
      · intro he
        exact hrc ((h k r c ha).1 (Fin.mk.inj he))
    · rfl

/-- The sign of the index `c` under the flips `s`. -/
def signOf (s : Fin 3 → Bool) (c : ℕ) : ℤ :=
  (if s 0 = true ∧ qubit 3 0 c = 1 then -1 else 1) * (if s 1 = true ∧ qubit 3 1 c = 1 then -1 else 1) *
    (if s 2 = true ∧ qubit 3 2 c = 1 then -1 else 1)

theorem flips_eq (s : Fin 3 → Bool) : flips s = Matrix.diagonal fun c : Fin (2 ^ 3) => ((signOf s c : ℤ) : ℂ) := by
  have h : ∀ k : Fin 3, (if s k then embed 3 [k.val] Gate.Z else 1) = Matrix.diagonal fun c : Fin (2 ^ 3) =>
      if s k = true ∧ qubit 3 k c = 1 then (-1 : ℂ) else 1 := by
    intro k
    by_cases hk : s k = true
    · simp only [hk, if_true, true_and]; exact embed_Z k
    · simp [hk]
  have h0 := h 0
  have h1 := h 1
  have h2 := h 2
  simp only [Fin.val_zero, Fin.val_one, Fin.val_two] at h0 h1 h2
  unfold flips
  rw [h0, h1, h2, Matrix.diagonal_mul_diagonal, Matrix.diagonal_mul_diagonal]
  congr 1
  ext c
  simp only [signOf]
  push_cast
  split_ifs <;> simp

theorem cube : ((1 / Real.sqrt 2 : ℝ) : ℂ) ^ 3 * ((1 / Real.sqrt 8 : ℝ) : ℂ) = 1 / 8 := by
  have h8 : Real.sqrt 8 = 2 * Real.sqrt 2 := by
    rw [show (8 : ℝ) = 2 ^ 2 * 2 by norm_num, Real.sqrt_mul (by positivity), Real.sqrt_sq (by norm_num)]
  have h2 : Real.sqrt 2 ^ 2 = 2 := Real.sq_sqrt (by norm_num)
  have h0 : Real.sqrt 2 ≠ 0 := by positivity
  have : (1 / Real.sqrt 2) ^ 3 * (1 / Real.sqrt 8) = (1 / 8 : ℝ) := by
    rw [h8]
    have h4 : Real.sqrt 2 ^ 4 = 4 := by rw [show (4 : ℕ) = 2 * 2 by rfl, pow_mul, h2]; norm_num
    field_simp
    linarith
  rw [← ofReal_pow, ← ofReal_mul, this]; norm_num

theorem codeword_eq (a b : ℂ) (c : Fin (2 ^ 3)) : codeword a b c =
    ((1 / Real.sqrt 2 : ℝ) : ℂ) ^ 3 * (a + b * ((signOf (fun _ => true) c : ℤ) : ℂ)) := by
  simp only [codeword, sign, signOf]
  push_cast
  simp only [false_and, if_false, true_and]
  ring

/-- Sums of signs that the decoder has to evaluate. -/
theorem sum_signs : ∀ s : Fin 3 → Bool, ∀ r : Fin 8,
    (∑ c : Fin 8, (Gate.qeccInt.getD r []).getD c 0 * signOf s c =
      if qubit 3 0 r = (s 0 ^^ s 2).toNat ∧ qubit 3 1 r = (s 1 ^^ s 2).toNat then
        (if (qubit 3 2 r = 0) = (weight s ≤ 1) then 8 else 0) else 0) ∧
    (∑ c : Fin 8, (Gate.qeccInt.getD r []).getD c 0 * (signOf s c * signOf (fun _ => true) c) =
      if qubit 3 0 r = (s 0 ^^ s 2).toNat ∧ qubit 3 1 r = (s 1 ^^ s 2).toNat then
        (if (qubit 3 2 r = 0) = (weight s ≤ 1) then 0 else 8) else 0) := by
  have h : ∀ x y z : Bool, ∀ r : Fin 8,
    (∑ c : Fin 8, (Gate.qeccInt.getD r []).getD c 0 * signOf ![x, y, z] c =
      if qubit 3 0 r = (x ^^ z).toNat ∧ qubit 3 1 r = (y ^^ z).toNat then
        (if (qubit 3 2 r = 0 ↔ x.toNat + y.toNat + z.toNat ≤ 1) then 8 else 0) else 0) ∧
    (∑ c : Fin 8, (Gate.qeccInt.getD r []).getD c 0 * (signOf ![x, y, z] c * signOf (fun _ => true) c) =
      if qubit 3 0 r = (x ^^ z).toNat ∧ qubit 3 1 r = (y ^^ z).toNat then
        (if (qubit 3 2 r = 0 ↔ x.toNat + y.toNat + z.toNat ≤ 1) then 0 else 8) else 0) := by
    decide
  intro s r
  have hs : s = ![s 0, s 1, s 2] := by ext k; fin_cases k <;> rfl
  have := h (s 0) (s 1) (s 2) r
  rw [← hs] at this
  simpa only [weight, eq_iff_iff] using this

theorem phaseFlip_entry (r c : Fin 8) : Gate.phaseFlip r c =
    ((1 / Real.sqrt 8 : ℝ) : ℂ) * (((Gate.qeccInt.getD r []).getD c 0 : ℤ) : ℂ) := by
  have hsign : ∀ r c : Fin 8, UnitaryDefinitions.qeccSigns.val r c = (((Gate.qeccInt.getD r []).getD c 0 : ℤ) : ℂ) := by
    intro r c
    fin_cases r <;> fin_cases c <;> simp [UnitaryDefinitions.qeccSigns, Arr.ofRows, Gate.qeccInt]
  rw [← UnitaryDefinitions.qeccMatrix_eq, ← hsign]
  rfl

/-- The decoder on a codeword with flips. -/
theorem decode (s : Fin 3 → Bool) (a b : ℂ) : Gate.phaseFlip *ᵥ (flips s *ᵥ codeword a b) =
    if weight s ≤ 1 then stored (s 0 ^^ s 2) (s 1 ^^ s 2) a b else stored (s 0 ^^ s 2) (s 1 ^^ s 2) b a := by
  funext r
  obtain ⟨h1, h2⟩ := sum_signs s r
  have h1 := congrArg (fun z : ℤ => (z : ℂ)) h1
  have h2 := congrArg (fun z : ℤ => (z : ℂ)) h2
  simp only [Int.cast_sum, Int.cast_mul] at h1 h2
  have hL : (Gate.phaseFlip *ᵥ (flips s *ᵥ codeword a b)) r = 1 / 8 *
      (a * ∑ c : Fin 8, (((Gate.qeccInt.getD r []).getD c 0 : ℤ) : ℂ) * ((signOf s c : ℤ) : ℂ) +
       b * ∑ c : Fin 8, (((Gate.qeccInt.getD r []).getD c 0 : ℤ) : ℂ) *
        (((signOf s c : ℤ) : ℂ) * ((signOf (fun _ => true) c : ℤ) : ℂ))) := by
    rw [Finset.mul_sum, Finset.mul_sum, ← Finset.sum_add_distrib, Finset.mul_sum]
    change ∑ c : Fin 8, Gate.phaseFlip r c * (flips s *ᵥ codeword a b) c = _
    refine Finset.sum_congr rfl fun c _ => ?_
    rw [phaseFlip_entry, flips_eq, Matrix.mulVec_diagonal, codeword_eq, ← cube]
    ring
  rw [hL, h1, h2]
  by_cases hw : weight s ≤ 1 <;> by_cases hq : qubit 3 2 r = 0 <;>
    by_cases hx : qubit 3 0 r = (s 0 ^^ s 2).toNat ∧ qubit 3 1 r = (s 1 ^^ s 2).toNat <;>
    simp [stored, hw, hq, hx] <;> ring

/-- Inner products of stored states. -/
theorem stored_dot (x y x' y' : Bool) (a b c d : ℂ) : star (stored x y a b) ⬝ᵥ stored x' y' c d =
    if x = x' ∧ y = y' then star a * c + star b * d else 0 := by
  change ∑ r : Fin 8, star (stored x y a b r) * stored x' y' c d r = _
  simp only [Fin.sum_univ_eight]
  cases x <;> cases y <;> cases x' <;> cases y' <;> simp [stored, qubit]

theorem fidelity_smul {w : ℂ} (hw : ‖w‖ = 1) (a b : ℂ) (v : Fin (2 ^ 3) → ℂ) :
    fidelity a b (w • v) = fidelity a b v := by
  simp only [fidelity, dotProduct_smul, norm_smul, hw, one_mul]

theorem fidelity_stored (a b c d : ℂ) (x y : Bool) :
    fidelity a b (stored x y c d) = ‖star a * c + star b * d‖ ^ 2 := by
  simp only [fidelity, stored_dot, Fintype.sum_bool]
  cases x <;> cases y <;> simp

theorem le_fidelity (a b : ℂ) (x y : Bool) (v : Fin (2 ^ 3) → ℂ) :
    ‖star (stored x y a b) ⬝ᵥ v‖ ^ 2 ≤ fidelity a b v := by
  unfold fidelity
  refine le_trans ?_ (Finset.single_le_sum (f := fun x => ∑ y : Bool, ‖star (stored x y a b) ⬝ᵥ v‖ ^ 2)
    (fun x _ => Finset.sum_nonneg fun y _ => sq_nonneg _) (Finset.mem_univ x))
  exact Finset.single_le_sum (f := fun y => ‖star (stored x y a b) ⬝ᵥ v‖ ^ 2) (fun y _ => sq_nonneg _)
    (Finset.mem_univ y)

/-- A unitary matrix of one qubit with the first column `(a, b)`. -/
def frame (a b : ℂ) : Matrix (Fin 2) (Fin 2) ℂ := !![a, -star b; b, star a]

theorem frame_unitary {a b : ℂ} (h : ‖a‖ ^ 2 + ‖b‖ ^ 2 = 1) : frame a b ∈ unitaryGroup (Fin 2) ℂ := by
  have h' : a * star a + b * star b = 1 := by
    have e : ∀ z : ℂ, z * star z = ((‖z‖ ^ 2 : ℝ) : ℂ) := fun z => by
      rw [Complex.star_def, Complex.mul_conj, Complex.normSq_eq_norm_sq]
    rw [e, e, ← ofReal_add, h, ofReal_one]
  rw [mem_unitaryGroup_iff', star_eq_conjTranspose]
  ext i j
  fin_cases i <;> fin_cases j <;> simp [frame, Matrix.mul_apply, Fin.sum_univ_two] at h' ⊢
  · linear_combination h'
  · ring
  · ring
  · linear_combination h'

/-- The column of `frame` on the last qubit that belongs to `|x y 0⟩`. -/
theorem embed_frame (a b : ℂ) (x y : Bool) : ∃ c : Fin (2 ^ 3), ∀ r, embed 3 [2] (frame a b) r c = stored x y a b r := by
  refine ⟨⟨4 * x.toNat + 2 * y.toNat, by cases x <;> cases y <;> decide⟩, fun r => ?_⟩
  have h : ∀ x y : Bool, ∀ r : Fin (2 ^ 3), (AgreeOff 3 [2] r (4 * x.toNat + 2 * y.toNat) ↔
      qubit 3 0 r = x.toNat ∧ qubit 3 1 r = y.toNat) ∧ gather 3 [2] (4 * x.toNat + 2 * y.toNat) = 0 := by decide
  have hg : gather 3 [2] r = qubit 3 2 r := by simp [gather]
  have hf : ∀ i : Fin 2, frame a b i 0 = if i.val = 0 then a else b := by
    intro i; fin_cases i <;> simp [frame]
  obtain ⟨h1, h2⟩ := h x y r
  simp only [embed, stored, h1]
  split_ifs with h3 h4
  · have := hf ⟨gather 3 [2] r, gather_lt 3 [2] r⟩
    simp only [hg, h4, if_true] at this
    convert this using 2
    · exact Fin.ext (by simp [hg, h4])
    · exact Fin.ext h2
  · have := hf ⟨gather 3 [2] r, gather_lt 3 [2] r⟩
    simp only [hg, h4, if_false] at this
    convert this using 2
    · exact Fin.ext (by simp [hg])
    · exact Fin.ext h2
  · rfl

/-- A unitary matrix close to the decoder stores nearly the same state. -/
theorem near_decoder {V : Matrix (Fin (2 ^ 3)) (Fin (2 ^ 3)) ℂ} (hV : V ∈ unitaryGroup (Fin (2 ^ 3)) ℂ)
    {U : Matrix (Fin (2 ^ 3)) (Fin (2 ^ 3)) ℂ} (hU : U ∈ unitaryGroup (Fin (2 ^ 3)) ℂ) {a b : ℂ}
    (h : ‖a‖ ^ 2 + ‖b‖ ^ 2 = 1) {x y : Bool} {w : ℂ} (hw : ‖w‖ = 1) {v : Fin (2 ^ 3) → ℂ}
    (hv : U *ᵥ v = w • stored x y a b) {ε : ℝ} (hε : 1 - ε ≤ overlap U V) (h4 : 4 * ε ≤ 1) :
    (1 - 4 * ε) ^ 2 ≤ fidelity a b (V *ᵥ v) := by
  set Q := embed 3 [2] (frame a b) with hQ
  have hQu : Q ∈ unitaryGroup (Fin (2 ^ 3)) ℂ :=
    embed_mem_unitary (by simp) (by simp) (frame_unitary h)
  obtain ⟨c, hc⟩ := embed_frame a b x y
  have hQs := hQu
  have hUs := hU
  rw [mem_unitaryGroup_iff, star_eq_conjTranspose] at hQs
  rw [mem_unitaryGroup_iff', star_eq_conjTranspose] at hUs
  have hA : Qᴴ * (V * Uᴴ) * Q ∈ unitaryGroup (Fin (2 ^ 3)) ℂ := by
    rw [← star_eq_conjTranspose, ← star_eq_conjTranspose]
    exact mul_mem (mul_mem (_root_.Unitary.star_mem hQu) (mul_mem hV (_root_.Unitary.star_mem hU))) hQu
  have htr : (Qᴴ * (V * Uᴴ) * Q).trace = (Uᴴ * V).trace := by
    rw [Matrix.trace_mul_comm, ← Matrix.mul_assoc, hQs, Matrix.one_mul, Matrix.trace_mul_comm]
  have hdiag := norm_trace_le_diag hA c
  rw [htr] at hdiag
  have hov : ‖(Uᴴ * V).trace‖ = 8 * overlap U V := by
    unfold overlap; push_cast; ring
  have hQc : Q *ᵥ Pi.single c 1 = stored x y a b := by
    funext r
    rw [Matrix.mulVec_single_one, Matrix.col_apply]; exact hc r
  have hvv : v = w • (Uᴴ *ᵥ stored x y a b) := by
    rw [← Matrix.mulVec_smul, ← hv, Matrix.mulVec_mulVec, hUs, Matrix.one_mulVec]
  have hent : (Qᴴ * (V * Uᴴ) * Q) c c = star (stored x y a b) ⬝ᵥ ((V * Uᴴ) *ᵥ stored x y a b) := by
    rw [← hQc, Matrix.star_mulVec, ← Matrix.dotProduct_mulVec, Matrix.mulVec_mulVec, Matrix.mulVec_mulVec]
    rw [← Matrix.mul_assoc, Matrix.mulVec_single_one, Pi.star_single, star_one, single_one_dotProduct, Matrix.col_apply]
  have hn : ‖(Qᴴ * (V * Uᴴ) * Q) c c‖ = ‖star (stored x y a b) ⬝ᵥ (V *ᵥ v)‖ := by
    rw [hent, hvv, Matrix.mulVec_smul, Matrix.mulVec_mulVec, dotProduct_smul, norm_smul, hw, one_mul]
  refine le_trans ?_ (le_fidelity a b x y _)
  rw [← hn]
  refine pow_le_pow_left₀ (by linarith) ?_ 2
  push_cast at hdiag
  linarith

end Stoq.PhaseFlip
