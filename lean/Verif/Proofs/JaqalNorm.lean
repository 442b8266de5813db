import Mathlib.Analysis.SpecialFunctions.Trigonometric.Bounds
import Verif.Proofs.Jaqal

/-!
# How much a JAQAL program changes when its numbers are rounded
-/

namespace Stoq

open Matrix Complex Noise
open scoped Matrix.Norms.L2Operator Kronecker

namespace Jaqal

/-- A matrix whose Gram matrix is a multiple of the identity. -/
theorem norm_of_gram {ι : Type} [Fintype ι] [DecidableEq ι] [Nonempty ι] {A : Matrix ι ι ℂ} {x y : ℝ} (hy : 0 ≤ y)
    (h : Aᴴ * A = (x : ℂ) • 1) (h2 : 0 ≤ x) (hx : x ≤ y ^ 2) : ‖A‖ ≤ y := by
  have h1 : ‖A‖ * ‖A‖ = |x| := by
    rw [← l2_opNorm_conjTranspose_mul_self, h, norm_smul, CStarRing.norm_one, mul_one, Complex.norm_real,
      Real.norm_eq_abs]
  rw [abs_of_nonneg h2] at h1
  nlinarith [norm_nonneg A]

theorem cos_bound (x : ℝ) : 2 - 2 * Real.cos x ≤ x ^ 2 := by
  have := Real.one_sub_sq_div_two_le_cos (x := x)
  linarith

variable {ι : Type} [Fintype ι] [DecidableEq ι] [Nonempty ι]

theorem rot_sub_one {P : Matrix ι ι ℂ} (h1 : P * P = 1) (h2 : Pᴴ = P) (θ : ℝ) :
    ‖Gate.rot P θ - 1‖ ≤ |θ| / 2 := by
  refine norm_of_gram (x := 2 - 2 * Real.cos (θ / 2)) (by positivity) ?_ (by linarith [Real.cos_le_one (θ / 2)]) ?_
  · have hu := mem_unitaryGroup_iff'.mp (Gate.rot_unitary h1 h2 θ)
    rw [star_eq_conjTranspose] at hu
    rw [conjTranspose_sub, conjTranspose_one, sub_mul, mul_sub, mul_sub, hu, Gate.rot_ct h2]
    simp only [Matrix.one_mul, Matrix.mul_one, Gate.rot]
    rw [show (-θ) / 2 = -(θ / 2) by ring, Real.cos_neg, Real.sin_neg]
    push_cast
    module
  · have := cos_bound (θ / 2)
    rw [show (|θ| / 2) ^ 2 = (θ / 2) ^ 2 by rw [div_pow, div_pow, sq_abs]]
    exact this

theorem norm_hermitian_unitary {P : Matrix ι ι ℂ} (h1 : P * P = 1) (h2 : Pᴴ = P) : ‖P‖ ≤ 1 :=
  norm_of_gram (x := 1) zero_le_one (by rw [h2, h1]; simp) zero_le_one (by norm_num)

theorem norm_rot {P : Matrix ι ι ℂ} (h1 : P * P = 1) (h2 : Pᴴ = P) (θ : ℝ) : ‖Gate.rot P θ‖ ≤ 1 := by
  refine norm_of_gram (x := 1) zero_le_one ?_ zero_le_one (by norm_num)
  have hu := mem_unitaryGroup_iff'.mp (Gate.rot_unitary h1 h2 θ)
  rw [star_eq_conjTranspose] at hu
  rw [hu]; simp

theorem rot_sub {P Q : Matrix ι ι ℂ} (h1 : P * P = 1) (h2 : Pᴴ = P) (θ θ' : ℝ) :
    ‖Gate.rot P θ - Gate.rot Q θ'‖ ≤ |θ - θ'| / 2 + ‖P - Q‖ := by
  have e : Gate.rot P θ - Gate.rot Q θ' =
      (Gate.rot P θ' * (Gate.rot P (θ - θ') - 1)) - (I * (Real.sin (θ' / 2) : ℂ)) • (P - Q) := by
    rw [mul_sub, Matrix.mul_one, Gate.rot_add h1, show θ' + (θ - θ') = θ by ring]
    simp only [Gate.rot]
    module
  rw [e]
  refine (norm_sub_le _ _).trans (add_le_add ?_ ?_)
  · refine (norm_mul_le _ _).trans ?_
    have := rot_sub_one h1 h2 (θ - θ')
    nlinarith [norm_rot h1 h2 θ', norm_nonneg (Gate.rot P θ'), norm_nonneg (Gate.rot P (θ - θ') - 1)]
  · rw [norm_smul, norm_mul, Complex.norm_I, one_mul, Complex.norm_real, Real.norm_eq_abs]
    have := Real.abs_sin_le_one (θ' / 2)
    nlinarith [norm_nonneg (P - Q)]

theorem axis_sub (φ φ' : ℝ) : ‖axis φ - axis φ'‖ ≤ |φ - φ'| := by
  refine norm_of_gram (x := 2 - 2 * Real.cos (φ - φ')) (abs_nonneg _) ?_ (by linarith [Real.cos_le_one (φ - φ')])
    (by rw [sq_abs]; exact cos_bound _)
  have hs : (axis φ - axis φ')ᴴ = axis φ - axis φ' := by
    rw [conjTranspose_sub, axis, axis, Gate.axis_ct, Gate.axis_ct]
  rw [hs]
  have h1 : (Real.cos φ : ℂ) ^ 2 + (Real.sin φ : ℂ) ^ 2 = 1 := by exact_mod_cast Real.cos_sq_add_sin_sq φ
  have h2 : (Real.cos φ' : ℂ) ^ 2 + (Real.sin φ' : ℂ) ^ 2 = 1 := by exact_mod_cast Real.cos_sq_add_sin_sq φ'
  rw [Real.cos_sub]
  push_cast at h1 h2 ⊢
  ext i j
  fin_cases i <;> fin_cases j <;>
    simp [axis, Gate.X, Gate.Y, Matrix.mul_apply, Fin.sum_univ_two]
  · linear_combination h1 + h2 - (Complex.sin φ - Complex.sin φ') ^ 2 * Complex.I_sq
  · linear_combination h1 + h2 - (Complex.sin φ - Complex.sin φ') ^ 2 * Complex.I_sq

theorem norm_one_kron_le {κ ν : Type} [Fintype κ] [DecidableEq κ] [Fintype ν] [DecidableEq ν] (B : Matrix ν ν ℂ) :
    ‖(1 : Matrix κ κ ℂ) ⊗ₖ B‖ ≤ ‖B‖ := by
  have : (1 : Matrix κ κ ℂ) ⊗ₖ B = (B ⊗ₖ (1 : Matrix κ κ ℂ)).submatrix (Equiv.prodComm κ ν) (Equiv.prodComm κ ν) := by
    ext ⟨a, b⟩ ⟨c, d⟩
    simp [kroneckerMap_apply, mul_comm]
  rw [this]
  exact (norm_submatrix_le _ _).trans (norm_kron_one_le B)

theorem norm_axis (φ : ℝ) : ‖axis φ‖ ≤ 1 := norm_hermitian_unitary (Gate.axis_sq φ) (Gate.axis_ct φ)

theorem axis2_sub (φ φ' : ℝ) : ‖axis φ ⊗ₖ axis φ - axis φ' ⊗ₖ axis φ'‖ ≤ 2 * |φ - φ'| := by
  have e : axis φ ⊗ₖ axis φ - axis φ' ⊗ₖ axis φ' =
      ((axis φ - axis φ') ⊗ₖ (1 : Matrix (Fin 2) (Fin 2) ℂ)) * ((1 : Matrix (Fin 2) (Fin 2) ℂ) ⊗ₖ axis φ) +
      (axis φ' ⊗ₖ (1 : Matrix (Fin 2) (Fin 2) ℂ)) * ((1 : Matrix (Fin 2) (Fin 2) ℂ) ⊗ₖ (axis φ - axis φ')) := by
    rw [← mul_kronecker_mul, ← mul_kronecker_mul]
    simp only [Matrix.mul_one, Matrix.one_mul]
    ext i j
    simp only [Matrix.sub_apply, Matrix.add_apply, kroneckerMap_apply]
    ring
  rw [e]
  have h0 := axis_sub φ φ'
  have h1 := (norm_kron_one_le (κ := Fin 2) (axis φ - axis φ')).trans h0
  have h2 := (norm_one_kron_le (κ := Fin 2) (axis φ)).trans (norm_axis φ)
  have h3 := (norm_kron_one_le (κ := Fin 2) (axis φ')).trans (norm_axis φ')
  have h4 := (norm_one_kron_le (κ := Fin 2) (axis φ - axis φ')).trans h0
  refine (norm_add_le _ _).trans ?_
  have h5 := (norm_mul_le ((axis φ - axis φ') ⊗ₖ (1 : Matrix (Fin 2) (Fin 2) ℂ))
    ((1 : Matrix (Fin 2) (Fin 2) ℂ) ⊗ₖ axis φ)).trans (mul_le_mul h1 h2 (norm_nonneg _) (abs_nonneg _))
  have h6 := (norm_mul_le (axis φ' ⊗ₖ (1 : Matrix (Fin 2) (Fin 2) ℂ))
    ((1 : Matrix (Fin 2) (Fin 2) ℂ) ⊗ₖ (axis φ - axis φ'))).trans (mul_le_mul h3 h4 (norm_nonneg _) zero_le_one)
  linarith

theorem embed_sub {n : ℕ} {a : List ℕ} (A B : Matrix (Fin (2 ^ a.length)) (Fin (2 ^ a.length)) ℂ) :
    embed n a (A - B) = embed n a A - embed n a B := by
  ext r c
  simp only [embed, Matrix.sub_apply]
  split <;> simp

theorem norm_embed_le {n : ℕ} {a : List ℕ} (hnd : a.Nodup) (hlt : ∀ q ∈ a, q < n)
    (A : Matrix (Fin (2 ^ a.length)) (Fin (2 ^ a.length)) ℂ) : ‖embed n a A‖ ≤ ‖A‖ := by
  rw [embed_eq_submatrix hnd hlt]
  exact (norm_submatrix_le _ _).trans (norm_kron_one_le A)

/-- Two gates on the same qubits, of norm at most one and `ε` apart. -/
structure Close (ε : ℝ) (g g' : Gate) : Prop where
  ex : ∃ (a : List ℕ) (A B : Matrix (Fin (2 ^ a.length)) (Fin (2 ^ a.length)) ℂ), g = ⟨a, A⟩ ∧ g' = ⟨a, B⟩ ∧
    ‖A‖ ≤ 1 ∧ ‖B‖ ≤ 1 ∧ ‖A - B‖ ≤ ε

theorem near_two {δ a b : ℝ} {l : List ℝ} (h : List.Forall₂ (fun v v' => |v - v'| ≤ δ) [a, b] l) :
    ∃ a' b', l = [a', b'] ∧ |a - a'| ≤ δ ∧ |b - b'| ≤ δ := by
  rcases h with _ | ⟨h1, h⟩
  rcases h with _ | ⟨h2, h⟩
  cases h
  exact ⟨_, _, rfl, h1, h2⟩

theorem near_one {δ a : ℝ} {l : List ℝ} (h : List.Forall₂ (fun v v' => |v - v'| ≤ δ) [a] l) :
    ∃ a', l = [a'] ∧ |a - a'| ≤ δ := by
  rcases h with _ | ⟨h1, h⟩
  cases h
  exact ⟨_, rfl, h1⟩

theorem turn_near {δ φ θ φ' θ' : ℝ} (h1 : |φ - φ'| ≤ δ) (h2 : |θ - θ'| ≤ δ) :
    ‖turn φ θ‖ ≤ 1 ∧ ‖turn φ' θ'‖ ≤ 1 ∧ ‖turn φ θ - turn φ' θ'‖ ≤ 5 / 2 * δ := by
  refine ⟨norm_rot (Gate.axis_sq φ) (Gate.axis_ct φ) θ, norm_rot (Gate.axis_sq φ') (Gate.axis_ct φ') θ', ?_⟩
  have h3 : ‖turn φ θ - turn φ' θ'‖ ≤ |θ - θ'| / 2 + ‖axis φ - axis φ'‖ :=
    rot_sub (Gate.axis_sq φ) (Gate.axis_ct φ) θ θ'
  have h4 := axis_sub φ φ'
  have := abs_nonneg (φ - φ')
  linarith

theorem pauli_near {δ θ θ' : ℝ} {P : Matrix (Fin 2) (Fin 2) ℂ} (h1 : P * P = 1) (h2 : Pᴴ = P) (h : |θ - θ'| ≤ δ) :
    ‖Gate.rot P θ‖ ≤ 1 ∧ ‖Gate.rot P θ'‖ ≤ 1 ∧ ‖Gate.rot P θ - Gate.rot P θ'‖ ≤ 5 / 2 * δ := by
  refine ⟨norm_rot h1 h2 θ, norm_rot h1 h2 θ', ?_⟩
  have h3 := rot_sub (Q := P) h1 h2 θ θ'
  rw [sub_self, norm_zero] at h3
  have := abs_nonneg (θ - θ')
  linarith

theorem ms_near {δ φ θ φ' θ' : ℝ} (h1 : |φ - φ'| ≤ δ) (h2 : |θ - θ'| ≤ δ) :
    ‖Paper.ms4 φ θ‖ ≤ 1 ∧ ‖Paper.ms4 φ' θ'‖ ≤ 1 ∧ ‖Paper.ms4 φ θ - Paper.ms4 φ' θ'‖ ≤ 5 / 2 * δ := by
  refine ⟨(norm_submatrix_le _ _).trans (norm_rot (axis2_sq φ) (axis2_ct φ) θ),
    (norm_submatrix_le _ _).trans (norm_rot (axis2_sq φ') (axis2_ct φ') θ'), ?_⟩
  have h3 : ‖turn2 φ θ - turn2 φ' θ'‖ ≤ |θ - θ'| / 2 + ‖axis φ ⊗ₖ axis φ - axis φ' ⊗ₖ axis φ'‖ :=
    rot_sub (axis2_sq φ) (axis2_ct φ) θ θ'
  have h4 := axis2_sub φ φ'
  have h5 : Paper.ms4 φ θ - Paper.ms4 φ' θ' = (turn2 φ θ - turn2 φ' θ').submatrix
      (finProdFinEquiv (m := 2) (n := 2)).symm (finProdFinEquiv (m := 2) (n := 2)).symm := rfl
  rw [h5]
  refine (norm_submatrix_le _ _).trans ?_
  linarith

theorem gate_near {δ : ℝ} {s s' : Statement} {g : Gate} (h1 : s.name = s'.name) (h2 : s.qubits = s'.qubits)
    (h3 : List.Forall₂ (fun v v' => |v - v'| ≤ δ) s.values s'.values) (hg : s.gate = some g) :
    g.qubits = s.qubits ∧ ∃ g', s'.gate = some g' ∧ Close (5 / 2 * δ) g g' := by
  obtain ⟨name, qubits, values⟩ := s
  obtain ⟨name', qubits', values'⟩ := s'
  simp only at h1 h2 h3
  subst h1 h2
  unfold Statement.gate at hg ⊢
  simp only at hg ⊢
  split at hg
  · obtain ⟨a', b', rfl, k1, k2⟩ := near_two h3
    split_ifs at hg with hn
    cases hg
    exact ⟨rfl, ⟨[_], turn a' b'⟩, by simp [hn], ⟨_, _, _, rfl, rfl, turn_near k1 k2⟩⟩
  · obtain ⟨a', rfl, k1⟩ := near_one h3
    split_ifs at hg with hn hn' hn''
    · cases hg
      exact ⟨rfl, ⟨[_], Gate.rot Gate.X a'⟩, by simp [hn], ⟨_, _, _, rfl, rfl, pauli_near Gate.X_sq Gate.X_ct k1⟩⟩
    · cases hg
      exact ⟨rfl, ⟨[_], Gate.rot Gate.Y a'⟩, by simp [hn'], ⟨_, _, _, rfl, rfl, pauli_near Gate.Y_sq Gate.Y_ct k1⟩⟩
    · cases hg
      exact ⟨rfl, ⟨[_], Gate.rot Gate.Z a'⟩, by simp [hn''], ⟨_, _, _, rfl, rfl, pauli_near Gate.Z_sq Gate.Z_ct k1⟩⟩
  · obtain ⟨a', b', rfl, k1, k2⟩ := near_two h3
    split_ifs at hg with hn
    cases hg
    exact ⟨rfl, ⟨[_, _], Paper.ms4 a' b'⟩, by simp [hn], ⟨_, _, _, rfl, rfl, ms_near k1 k2⟩⟩
  · cases hg

theorem near_meaning {n : ℕ} {δ : ℝ} {ss ss' : List Statement} (h : Near δ ss ss')
    {U : Matrix (Fin (2 ^ n)) (Fin (2 ^ n)) ℂ} (hU : meaning n ss = some U) :
    ∃ U', meaning n ss' = some U' ∧ ‖U‖ ≤ 1 ∧ ‖U'‖ ≤ 1 ∧ ‖U - U'‖ ≤ ss.length * (5 / 2 * δ) := by
  induction h generalizing U with
  | nil =>
    cases hU
    exact ⟨1, rfl, by rw [CStarRing.norm_one], by rw [CStarRing.norm_one], by simp⟩
  | @cons s s' ss ss' hs _ ih =>
    obtain ⟨h1, h2, h3⟩ := hs
    rw [meaning] at hU
    split_ifs at hU with hq
    obtain ⟨g, hg, hU⟩ := Option.bind_eq_some_iff.mp hU
    obtain ⟨V, hV, hU⟩ := Option.bind_eq_some_iff.mp hU
    cases hU
    obtain ⟨V', hV', k1, k2, k3⟩ := ih hV
    obtain ⟨hgq, g', hg', ⟨⟨a, A, B, rfl, rfl, e1, e2, e3⟩⟩⟩ := gate_near h1 h2 h3 hg
    simp only at hgq
    subst hgq
    have f1 := (norm_embed_le hq.1 hq.2 A).trans e1
    have f2 := (norm_embed_le hq.1 hq.2 B).trans e2
    have f3 := (norm_embed_le hq.1 hq.2 (A - B)).trans e3
    rw [embed_sub] at f3
    refine ⟨V' * embed n s.qubits B, ?_, ?_, ?_, ?_⟩
    · rw [meaning, if_pos (by rw [← h2]; exact hq), hg', hV']; rfl
    · exact (norm_mul_le _ _).trans (mul_le_one₀ k1 (norm_nonneg _) f1)
    · exact (norm_mul_le _ _).trans (mul_le_one₀ k2 (norm_nonneg _) f2)
    · have e : V * embed n s.qubits A - V' * embed n s.qubits B =
          (V - V') * embed n s.qubits A + V' * (embed n s.qubits A - embed n s.qubits B) := by
        rw [sub_mul, mul_sub]; abel
      show ‖V * embed n s.qubits A - V' * embed n s.qubits B‖ ≤ _
      rw [e, List.length_cons]
      push_cast
      have g1 := (norm_mul_le (V - V') (embed n s.qubits A)).trans
        (mul_le_of_le_one_right (norm_nonneg _) f1)
      have g2 := (norm_mul_le V' (embed n s.qubits A - embed n s.qubits B)).trans
        (mul_le_of_le_one_left (norm_nonneg _) k2)
      refine (norm_add_le _ _).trans ?_
      linarith

end Jaqal

end Stoq
