import Verif.Proofs.Generate
import Verif.Spec.PaperNoise

/-! # Pauli strings generate all Hermitian matrices -/

namespace Stoq

open Matrix Complex Finset
open scoped Matrix.Norms.L2Operator

variable {n : ℕ}

/-- The value of a qubit in a basis state. -/
def bitOf (r : Fin (2 ^ n)) (q : Fin n) : Fin 2 := ⟨qubit n q r, qubit_lt n q r⟩

theorem bitOf_injective : Function.Injective (bitOf (n := n)) := by
  intro r c h
  have : ∀ q < n, qubit n q r = qubit n q c := fun q hq => by
    have := congrArg Fin.val (congrFun h ⟨q, hq⟩)
    exact this
  apply Fin.ext
  rw [← num_qubit r.2, ← num_qubit c.2]
  exact num_congr this

theorem bitOf_bijective : Function.Bijective (bitOf (n := n)) :=
  (Fintype.bijective_iff_injective_and_card _).mpr ⟨bitOf_injective, by simp⟩

/-- The tensor product of one matrix for each qubit. -/
def tens (F : Fin n → Matrix (Fin 2) (Fin 2) ℂ) : Matrix (Fin (2 ^ n)) (Fin (2 ^ n)) ℂ := fun r c =>
  ∏ q, F q (bitOf r q) (bitOf c q)

theorem tens_mul (F G : Fin n → Matrix (Fin 2) (Fin 2) ℂ) : tens F * tens G = tens fun q => F q * G q := by
  ext r c
  simp only [Matrix.mul_apply, tens, ← prod_mul_distrib]
  rw [prod_univ_sum, Fintype.piFinset_univ]
  exact bitOf_bijective.sum_comp (fun p => ∏ q, F q (bitOf r q) (p q) * G q (p q) (bitOf c q))

theorem tens_one : tens (n := n) (fun _ => 1) = 1 := by
  ext r c
  simp only [tens, Matrix.one_apply]
  rw [prod_ite_zero]
  simp only [prod_const_one, mem_univ, true_imp_iff]
  refine if_congr ⟨fun h => bitOf_injective (funext h), fun h => by simp [h]⟩ rfl rfl

theorem tens_conjTranspose (F : Fin n → Matrix (Fin 2) (Fin 2) ℂ) : (tens F)ᴴ = tens fun q => (F q)ᴴ := by
  ext r c
  simp [tens, conjTranspose_apply]

theorem tens_update_smul (F : Fin n → Matrix (Fin 2) (Fin 2) ℂ) (i : Fin n) (c : ℂ) (M : Matrix (Fin 2) (Fin 2) ℂ) :
    tens (Function.update F i (c • M)) = c • tens (Function.update F i M) := by
  ext r s
  simp only [tens, Matrix.smul_apply, smul_eq_mul]
  rw [← mul_prod_erase univ _ (mem_univ i), ← mul_prod_erase univ _ (mem_univ i), ← mul_assoc]
  congr 1
  · simp
  · refine prod_congr rfl fun q hq => ?_
    rw [Function.update_of_ne (ne_of_mem_erase hq), Function.update_of_ne (ne_of_mem_erase hq)]

theorem tens_sum {κ : Type} [Fintype κ] [DecidableEq κ] (x : Fin n → κ → ℂ) (L : κ → Matrix (Fin 2) (Fin 2) ℂ) :
    tens (fun q => ∑ a, x q a • L a) = ∑ s : Fin n → κ, (∏ q, x q (s q)) • tens fun q => L (s q) := by
  ext r c
  simp only [tens, Matrix.sum_apply, Matrix.smul_apply, smul_eq_mul]
  rw [prod_univ_sum, Fintype.piFinset_univ]
  simp only [prod_mul_distrib]

/-- Pauli string. -/
noncomputable def pauli (s : Fin n → Fin 4) : Matrix (Fin (2 ^ n)) (Fin (2 ^ n)) ℂ := tens fun q => Noise.letter (s q)

theorem letter_hermitian (a : Fin 4) : (Noise.letter a)ᴴ = Noise.letter a := by
  fin_cases a <;> ext i j <;> fin_cases i <;> fin_cases j <;>
    simp [Noise.letter, Gate.X, Gate.Y, Gate.Z, conjTranspose_apply]

theorem letter_sq (a : Fin 4) : Noise.letter a * Noise.letter a = 1 := by
  fin_cases a <;> ext i j <;> fin_cases i <;> fin_cases j <;>
    simp [Noise.letter, Gate.X, Gate.Y, Gate.Z, Matrix.mul_apply]

theorem letter_third {a c : Fin 4} (ha : a ≠ 0) (hc : c ≠ 0) (hac : a ≠ c) : ∃ (b : Fin 4) (σ : ℝ), b ≠ 0 ∧ σ ≠ 0 ∧
    Noise.letter b * Noise.letter a = (σ * I) • Noise.letter c ∧
    Noise.letter b * Noise.letter a = (-1 : ℂ) • (Noise.letter a * Noise.letter b) := by
  fin_cases a <;> fin_cases c <;> first | exact absurd rfl ha | exact absurd rfl hc | exact absurd rfl hac | skip
  · refine ⟨3, 1, by decide, by norm_num, ?_, ?_⟩ <;> ext i j <;> fin_cases i <;> fin_cases j <;>
      simp [Noise.letter, Gate.X, Gate.Y, Gate.Z, Matrix.mul_apply]
  · refine ⟨2, -1, by decide, by norm_num, ?_, ?_⟩ <;> ext i j <;> fin_cases i <;> fin_cases j <;>
      simp [Noise.letter, Gate.X, Gate.Y, Gate.Z, Matrix.mul_apply]
  · refine ⟨3, -1, by decide, by norm_num, ?_, ?_⟩ <;> ext i j <;> fin_cases i <;> fin_cases j <;>
      simp [Noise.letter, Gate.X, Gate.Y, Gate.Z, Matrix.mul_apply]
  · refine ⟨1, 1, by decide, by norm_num, ?_, ?_⟩ <;> ext i j <;> fin_cases i <;> fin_cases j <;>
      simp [Noise.letter, Gate.X, Gate.Y, Gate.Z, Matrix.mul_apply]
  · refine ⟨2, 1, by decide, by norm_num, ?_, ?_⟩ <;> ext i j <;> fin_cases i <;> fin_cases j <;>
      simp [Noise.letter, Gate.X, Gate.Y, Gate.Z, Matrix.mul_apply]
  · refine ⟨1, -1, by decide, by norm_num, ?_, ?_⟩ <;> ext i j <;> fin_cases i <;> fin_cases j <;>
      simp [Noise.letter, Gate.X, Gate.Y, Gate.Z, Matrix.mul_apply]

theorem pauli_hermitian (s : Fin n → Fin 4) : (pauli s).IsHermitian := by
  unfold IsHermitian pauli
  rw [tens_conjTranspose]
  simp only [letter_hermitian]

theorem pauli_sq (s : Fin n → Fin 4) : pauli s * pauli s = 1 := by
  unfold pauli
  rw [tens_mul]
  simp only [letter_sq]
  exact tens_one

theorem pauli_zero : pauli (fun _ : Fin n => 0) = 1 := by
  unfold pauli
  exact tens_one

/-- Every matrix of one qubit is a combination of Pauli matrices. -/
theorem exists_letters (M : Matrix (Fin 2) (Fin 2) ℂ) : ∃ x : Fin 4 → ℂ, M = ∑ a, x a • Noise.letter a := by
  refine ⟨![(M 0 0 + M 1 1) / 2, (M 0 1 + M 1 0) / 2, I * (M 0 1 - M 1 0) / 2, (M 0 0 - M 1 1) / 2], ?_⟩
  ext i j
  rw [Fin.sum_univ_four]
  fin_cases i <;> fin_cases j <;> simp [Noise.letter, Gate.X, Gate.Y, Gate.Z] <;> ring_nf <;>
    simp only [I_sq] <;> ring

/-- Every matrix is a combination of Pauli strings. -/
theorem exists_strings (A : Matrix (Fin (2 ^ n)) (Fin (2 ^ n)) ℂ) :
    ∃ x : (Fin n → Fin 4) → ℂ, A = ∑ s, x s • pauli s := by
  choose y hy using fun r c : Fin 2 => exists_letters (Matrix.single r c (1 : ℂ))
  have h1 : ∀ r c : Fin (2 ^ n), Matrix.single r c (1 : ℂ) =
      ∑ s, (∏ q, y (bitOf r q) (bitOf c q) (s q)) • pauli s := by
    intro r c
    have : Matrix.single r c (1 : ℂ) = tens fun q => Matrix.single (bitOf r q) (bitOf c q) 1 := by
      ext i j
      simp only [tens, Matrix.single_apply]
      rw [prod_ite_zero]
      simp only [prod_const_one, mem_univ, true_imp_iff]
      refine if_congr ⟨fun h => by simp [h], fun h => ⟨bitOf_injective (funext fun q => (h q).1),
        bitOf_injective (funext fun q => (h q).2)⟩⟩ rfl rfl
    rw [this]
    conv_lhs => enter [1, q]; rw [hy]
    exact tens_sum _ _
  refine ⟨fun s => ∑ r, ∑ c, A r c * ∏ q, y (bitOf r q) (bitOf c q) (s q), ?_⟩
  conv_lhs => rw [matrix_eq_sum_single A]
  calc ∑ r, ∑ c, Matrix.single r c (A r c) = ∑ r, ∑ c, A r c • Matrix.single r c (1 : ℂ) := by
        simp [Matrix.smul_single]
    _ = ∑ r, ∑ c, ∑ s, (A r c * ∏ q, y (bitOf r q) (bitOf c q) (s q)) • pauli s := by
        refine sum_congr rfl fun r _ => sum_congr rfl fun c _ => ?_
        rw [h1, smul_sum]
        simp only [smul_smul]
    _ = _ := by
        simp only [sum_smul]
        rw [sum_comm]
        conv_rhs => rw [sum_comm]; enter [2, r]; rw [sum_comm]
        rw [sum_comm]

variable {S : Set (Matrix (Fin (2 ^ n)) (Fin (2 ^ n)) ℂ)}

theorem hermitian_generating (h : ∀ s : Fin n → Fin 4, Generating S (pauli s))
    {A : Matrix (Fin (2 ^ n)) (Fin (2 ^ n)) ℂ} (hA : A.IsHermitian) : Generating S A := by
  obtain ⟨x, hx⟩ := exists_strings A
  have e : A = ∑ s, ((x s).re : ℂ) • pauli s := by
    have h1 : A = (1 / 2 : ℂ) • (A + Aᴴ) := by rw [hA.eq]; module
    rw [h1]
    nth_rewrite 2 [hx]
    nth_rewrite 1 [hx]
    rw [conjTranspose_sum, ← sum_add_distrib, smul_sum]
    refine sum_congr rfl fun s _ => ?_
    rw [conjTranspose_smul, (pauli_hermitian s).eq, ← add_smul, smul_smul]
    congr 1
    rw [Complex.star_def, Complex.add_conj]
    push_cast; ring
  rw [e]
  exact Generating.sum univ fun s _ => (h s).smul _

theorem pauli_mul_smul {u s w : Fin n → Fin 4} {c : Fin n → ℂ}
    (h : ∀ q, Noise.letter (u q) * Noise.letter (s q) = c q • Noise.letter (w q)) :
    pauli u * pauli s = (∏ q, c q) • pauli w := by
  unfold pauli
  rw [tens_mul]
  simp only [h]
  ext i j
  simp only [tens, Matrix.smul_apply, smul_eq_mul, prod_mul_distrib]

theorem Generating.letter_change {s : Fin n → Fin 4} {i : Fin n}
    (hsite : ∀ a : Fin 4, a ≠ 0 → Generating S (pauli (Function.update (fun _ => 0) i a)))
    (hs : Generating S (pauli s)) (hi : s i ≠ 0) {c : Fin 4} (hc : c ≠ 0) :
    Generating S (pauli (Function.update s i c)) := by
  by_cases hac : s i = c
  · rw [← hac, Function.update_eq_self]; exact hs
  obtain ⟨b, σ, hb, hσ, h1, h2⟩ := letter_third hi hc hac
  have hl0 : Noise.letter 0 = 1 := rfl
  have e1 : pauli (Function.update (fun _ => 0) i b) * pauli s = (σ * I) • pauli (Function.update s i c) := by
    rw [pauli_mul_smul (w := Function.update s i c) (c := Function.update 1 i (σ * I))]
    · rw [prod_update_of_mem (mem_univ i)]; simp
    · intro q
      by_cases hq : q = i
      · subst hq; simpa using h1
      · simp [Function.update_of_ne hq, hl0]
  have e2 : pauli s * pauli (Function.update (fun _ => 0) i b) = (-(σ * I)) • pauli (Function.update s i c) := by
    rw [pauli_mul_smul (w := Function.update s i c) (c := Function.update 1 i (-(σ * I)))]
    · rw [prod_update_of_mem (mem_univ i)]; simp
    · intro q
      by_cases hq : q = i
      · subst hq
        have : Noise.letter (s q) * Noise.letter b = (-1 : ℂ) • (Noise.letter b * Noise.letter (s q)) := by
          rw [h2, smul_smul]; norm_num
        simp only [Function.update_self]
        rw [this, h1, smul_smul]; simp
      · simp [Function.update_of_ne hq, hl0]
  have h3 := hs.anticommute (hsite b hb) (pauli_sq _) (by rw [e1, e2, neg_smul, neg_neg])
  rw [e1, smul_smul] at h3
  have h4 := h3.smul (-σ⁻¹)
  rw [smul_smul] at h4
  convert h4 using 1
  have hσc : (σ : ℂ) ≠ 0 := by exact_mod_cast hσ
  rw [show ((-σ⁻¹ : ℝ) : ℂ) * (I * (σ * I)) = 1 by push_cast; field_simp; rw [I_sq]; ring, one_smul]

theorem Generating.letter_grow {s : Fin n → Fin 4} {i j : Fin n} (hij : i ≠ j)
    (hs : Generating S (pauli s))
    (hpair : Generating S (pauli (Function.update (Function.update (fun _ => 0) i 1) j 1))) (hi : s i = 2) (hj : s j = 0) :
    Generating S (pauli (Function.update (Function.update s i 3) j 1)) := by
  have hl0 : Noise.letter 0 = 1 := rfl
  have hxy : Noise.letter 1 * Noise.letter 2 = I • Noise.letter 3 := by
    ext i j; fin_cases i <;> fin_cases j <;> simp [Noise.letter, Gate.X, Gate.Y, Gate.Z, Matrix.mul_apply]
  have hyx : Noise.letter 2 * Noise.letter 1 = (-I) • Noise.letter 3 := by
    ext i j; fin_cases i <;> fin_cases j <;> simp [Noise.letter, Gate.X, Gate.Y, Gate.Z, Matrix.mul_apply]
  have e1 : pauli (Function.update (Function.update (fun _ => 0) i 1) j 1) * pauli s =
      I • pauli (Function.update (Function.update s i 3) j 1) := by
    rw [pauli_mul_smul (w := Function.update (Function.update s i 3) j 1) (c := Function.update 1 i I)]
    · rw [prod_update_of_mem (mem_univ i)]; simp
    · intro q
      by_cases hq : q = j
      · subst hq; simp [Function.update_of_ne hij.symm, hj, hl0]
      by_cases hq' : q = i
      · subst hq'; simp [Function.update_of_ne hq, hi, hxy]
      · simp [Function.update_of_ne hq, Function.update_of_ne hq', hl0]
  have e2 : pauli s * pauli (Function.update (Function.update (fun _ => 0) i 1) j 1) =
      (-I) • pauli (Function.update (Function.update s i 3) j 1) := by
    rw [pauli_mul_smul (w := Function.update (Function.update s i 3) j 1) (c := Function.update 1 i (-I))]
    · rw [prod_update_of_mem (mem_univ i)]; simp
    · intro q
      by_cases hq : q = j
      · subst hq; simp [Function.update_of_ne hij.symm, hj, hl0]
      by_cases hq' : q = i
      · subst hq'; simp [Function.update_of_ne hq, hi, hyx]
      · simp [Function.update_of_ne hq, Function.update_of_ne hq', hl0]
  have h3 := hs.anticommute hpair (pauli_sq _) (by rw [e1, e2, neg_smul, neg_neg])
  rw [e1, smul_smul, I_mul_I] at h3
  have h4 := h3.neg
  convert h4 using 1
  module

/-- Rotations about two axes of a qubit generate those about the third. -/
theorem Generating.site_letters (hX : ∀ i, Generating S (pauli (Function.update (fun _ : Fin n => 0) i 1)))
    (hY : ∀ i, Generating S (pauli (Function.update (fun _ : Fin n => 0) i 2))) (i : Fin n) (a : Fin 4) (ha : a ≠ 0) :
    Generating S (pauli (Function.update (fun _ => 0) i a)) := by
  have hl0 : Noise.letter 0 = 1 := rfl
  have hyx : Noise.letter 2 * Noise.letter 1 = (-I) • Noise.letter 3 := by
    ext i j; fin_cases i <;> fin_cases j <;> simp [Noise.letter, Gate.X, Gate.Y, Gate.Z, Matrix.mul_apply]
  have hxy : Noise.letter 1 * Noise.letter 2 = I • Noise.letter 3 := by
    ext i j; fin_cases i <;> fin_cases j <;> simp [Noise.letter, Gate.X, Gate.Y, Gate.Z, Matrix.mul_apply]
  have e1 : pauli (Function.update (fun _ : Fin n => 0) i 1) * pauli (Function.update (fun _ => 0) i 2) =
      I • pauli (Function.update (fun _ => 0) i 3) := by
    rw [pauli_mul_smul (w := Function.update (fun _ => 0) i 3) (c := Function.update 1 i I)]
    · rw [prod_update_of_mem (mem_univ i)]; simp
    · intro q
      by_cases hq : q = i
      · subst hq; simp [hxy]
      · simp [Function.update_of_ne hq, hl0]
  have e2 : pauli (Function.update (fun _ : Fin n => 0) i 2) * pauli (Function.update (fun _ => 0) i 1) =
      (-I) • pauli (Function.update (fun _ => 0) i 3) := by
    rw [pauli_mul_smul (w := Function.update (fun _ => 0) i 3) (c := Function.update 1 i (-I))]
    · rw [prod_update_of_mem (mem_univ i)]; simp
    · intro q
      by_cases hq : q = i
      · subst hq; simp [hyx]
      · simp [Function.update_of_ne hq, hl0]
  have h3 := (hY i).anticommute (hX i) (pauli_sq _) (by rw [e1, e2, neg_smul, neg_neg])
  rw [e1, smul_smul, I_mul_I] at h3
  have h4 := h3.neg
  rw [neg_smul, neg_neg, one_smul] at h4
  fin_cases a
  · exact absurd rfl ha
  · exact hX i
  · exact hY i
  · exact h4

/-- Couplings of `i` with `j` and of `j` with `k` generate the coupling of `i` with `k`. -/
theorem Generating.pair_trans (hX : ∀ i, Generating S (pauli (Function.update (fun _ : Fin n => 0) i 1)))
    (hY : ∀ i, Generating S (pauli (Function.update (fun _ : Fin n => 0) i 2))) {i j k : Fin n} (hij : i ≠ j)
    (hjk : j ≠ k) (hik : i ≠ k)
    (h1 : Generating S (pauli (Function.update (Function.update (fun _ : Fin n => 0) i 1) j 1)))
    (h2 : Generating S (pauli (Function.update (Function.update (fun _ : Fin n => 0) j 1) k 1))) :
    Generating S (pauli (Function.update (Function.update (fun _ : Fin n => 0) i 1) k 1)) := by
  have hsite := Generating.site_letters hX hY
  have hl0 : Noise.letter 0 = 1 := rfl
  have a1 := h1.letter_change (hsite j) (by simp) (c := 2) (by decide)
  have a2 := a1.letter_grow hjk h2 (by simp) (by simp [Function.update_of_ne hik.symm, Function.update_of_ne hjk.symm])
  have b1 := (h1.letter_change (hsite j) (by simp) (c := 3) (by decide)).letter_change (hsite i)
    (by simp [Function.update_of_ne hij]) (c := 2) (by decide)
  have hyx : Noise.letter 2 * Noise.letter 1 = (-I) • Noise.letter 3 := by
    ext i j; fin_cases i <;> fin_cases j <;> simp [Noise.letter, Gate.X, Gate.Y, Gate.Z, Matrix.mul_apply]
  have hxy : Noise.letter 1 * Noise.letter 2 = I • Noise.letter 3 := by
    ext i j; fin_cases i <;> fin_cases j <;> simp [Noise.letter, Gate.X, Gate.Y, Gate.Z, Matrix.mul_apply]
  have hs : ∀ u v : Fin n → Fin 4, ∀ c : ℂ, u i ≠ 0 → (∀ q, q ≠ i → Noise.letter (u q) * Noise.letter (v q) =
      Noise.letter (Function.update (Function.update (fun _ : Fin n => (0 : Fin 4)) i 3) k 1 q)) →
      Noise.letter (u i) * Noise.letter (v i) = c • Noise.letter 3 →
      pauli u * pauli v = c • pauli (Function.update (Function.update (fun _ : Fin n => 0) i 3) k 1) := by
    intro u v c _ h3 h4
    rw [pauli_mul_smul (w := Function.update (Function.update (fun _ : Fin n => 0) i 3) k 1)
      (c := Function.update 1 i c)]
    · rw [prod_update_of_mem (mem_univ i)]; simp
    · intro q
      by_cases hq : q = i
      · subst hq; simpa [Function.update_of_ne hik] using h4
      · rw [h3 q hq, Function.update_of_ne hq]; simp
  have hq : ∀ q, q ≠ i → q = j ∨ q = k ∨ (q ≠ j ∧ q ≠ k) := fun q _ => by tauto
  have e1 := hs _ _ (-I) (by simp) (fun q hqi => by
      rcases hq q hqi with rfl | rfl | ⟨g1, g2⟩
      · simp [Function.update_of_ne hqi, Function.update_of_ne hjk, letter_sq, hl0]
      · simp [Function.update_of_ne hqi, Function.update_of_ne hjk.symm, hl0]
      · simp [Function.update_of_ne hqi, Function.update_of_ne g1, Function.update_of_ne g2, hl0])
    (show Noise.letter (Function.update (Function.update (Function.update (Function.update (fun _ : Fin n => (0 : Fin 4))
      i 1) j 1) j 3) i 2 i) * Noise.letter (Function.update (Function.update (Function.update (Function.update
      (Function.update (fun _ : Fin n => (0 : Fin 4)) i 1) j 1) j 2) j 3) k 1 i) = _ by
      simpa [Function.update_of_ne hij, Function.update_of_ne hik] using hyx)
  have e2 := hs _ _ I (by simp [Function.update_of_ne hij, Function.update_of_ne hik]) (fun q hqi => by
      rcases hq q hqi with rfl | rfl | ⟨g1, g2⟩
      · simp [Function.update_of_ne hqi, Function.update_of_ne hjk, letter_sq, hl0]
      · simp [Function.update_of_ne hqi, Function.update_of_ne hjk.symm, hl0]
      · simp [Function.update_of_ne hqi, Function.update_of_ne g1, Function.update_of_ne g2, hl0])
    (show Noise.letter (Function.update (Function.update (Function.update (Function.update
      (Function.update (fun _ : Fin n => (0 : Fin 4)) i 1) j 1) j 2) j 3) k 1 i) * Noise.letter (Function.update
      (Function.update (Function.update (Function.update (fun _ : Fin n => (0 : Fin 4)) i 1) j 1) j 3) i 2 i) = _ by
      simpa [Function.update_of_ne hij, Function.update_of_ne hik] using hxy)
  have h3 := a2.anticommute b1 (pauli_sq _) (by rw [e1, e2, neg_smul])
  rw [e1, smul_smul, mul_neg, I_mul_I, neg_neg, one_smul] at h3
  have h4 := h3.letter_change (hsite i) (by simp [Function.update_of_ne hik]) (c := 1) (by decide)
  convert h4 using 2
  funext q
  by_cases hqi : q = i
  · subst hqi; simp [Function.update_of_ne hik]
  · by_cases hqk : q = k
    · subst hqk; simp [Function.update_of_ne hqi]
    · simp [Function.update_of_ne hqi, Function.update_of_ne hqk]

/-- All Pauli strings are generated by those of one letter and by the pairs of letters `X`. -/
theorem pauli_generating (hX : ∀ i, Generating S (pauli (Function.update (fun _ : Fin n => 0) i 1)))
    (hY : ∀ i, Generating S (pauli (Function.update (fun _ : Fin n => 0) i 2)))
    (hXX : ∀ i j, i ≠ j → Generating S (pauli (Function.update (Function.update (fun _ : Fin n => 0) i 1) j 1)))
    (s : Fin n → Fin 4) : Generating S (pauli s) := by
  classical
  have hsite := Generating.site_letters hX hY
  suffices h : ∀ (T : Finset (Fin n)) (s : Fin n → Fin 4), (∀ q, s q ≠ 0 ↔ q ∈ T) → Generating S (pauli s) from
    h (univ.filter fun q => s q ≠ 0) s (by simp)
  intro T
  induction T using Finset.induction_on with
  | empty =>
    intro s hs
    have : s = fun _ => 0 := funext fun q => by
      by_contra hq
      exact absurd ((hs q).mp hq) (by simp)
    rw [this, pauli_zero]
    exact Generating.one
  | insert j T hj ih =>
    intro s hs
    have hsj : s j ≠ 0 := (hs j).mpr (by simp)
    rcases T.eq_empty_or_nonempty with rfl | ⟨i, hi⟩
    · have : s = Function.update (fun _ => 0) j (s j) := by
        funext q
        by_cases hq : q = j
        · subst hq; simp
        · rw [Function.update_of_ne hq]
          by_contra h
          have := (hs q).mp h
          simp [hq] at this
      rw [this]
      exact hsite j _ hsj
    · have hij : i ≠ j := fun h => hj (h ▸ hi)
      have hsi : s i ≠ 0 := (hs i).mpr (by simp [hi])
      have h1 : Generating S (pauli (Function.update s j 0)) := by
        refine ih _ fun q => ?_
        by_cases hq : q = j
        · subst hq; simp [hj]
        · rw [Function.update_of_ne hq, hs q]; simp [hq]
      have h2 := h1.letter_change (hsite i) (by rwa [Function.update_of_ne hij]) (c := 2) (by decide)
      have h3 := h2.letter_grow hij (hXX i j hij) (by simp) (by simp [Function.update_of_ne hij.symm])
      have h4 := h3.letter_change (hsite i) (by simp [Function.update_of_ne hij]) hsi
      have h5 := h4.letter_change (hsite j) (by simp [Function.update_of_ne hij.symm]) hsj
      convert h5 using 2
      funext q
      by_cases hq : q = j
      · subst hq; simp
      by_cases hq' : q = i
      · subst hq'; simp [Function.update_of_ne hq]
      · simp [Function.update_of_ne hq, Function.update_of_ne hq']

/-- Hence every unitary matrix is approximated. -/
theorem approximated_of_letters (hX : ∀ i, Generating S (pauli (Function.update (fun _ : Fin n => 0) i 1)))
    (hY : ∀ i, Generating S (pauli (Function.update (fun _ : Fin n => 0) i 2)))
    (hXX : ∀ i j, i ≠ j → Generating S (pauli (Function.update (Function.update (fun _ : Fin n => 0) i 1) j 1)))
    {U : Matrix (Fin (2 ^ n)) (Fin (2 ^ n)) ℂ} (hU : U ∈ unitaryGroup (Fin (2 ^ n)) ℂ) : Approximated S U :=
  approximated_all (fun _ hA => hermitian_generating (pauli_generating hX hY hXX) hA) hU

/-- The gate on one qubit as a tensor product. -/
theorem embed_single {i : ℕ} (hi : i < n) (M : Matrix (Fin 2) (Fin 2) ℂ) :
    embed n [i] M = tens (Function.update (fun _ => 1) ⟨i, hi⟩ M) := by
  ext r c
  simp only [embed, tens]
  rw [← mul_prod_erase univ _ (mem_univ (⟨i, hi⟩ : Fin n))]
  have h1 : ∏ q ∈ univ.erase (⟨i, hi⟩ : Fin n), (Function.update (fun _ => (1 : Matrix (Fin 2) (Fin 2) ℂ)) ⟨i, hi⟩ M q)
      (bitOf r q) (bitOf c q) = if AgreeOff n [i] r c then 1 else 0 := by
    have : ∀ q ∈ univ.erase (⟨i, hi⟩ : Fin n), (Function.update (fun _ => (1 : Matrix (Fin 2) (Fin 2) ℂ)) ⟨i, hi⟩ M q)
        (bitOf r q) (bitOf c q) = if bitOf r q = bitOf c q then 1 else 0 := by
      intro q hq
      rw [Function.update_of_ne (ne_of_mem_erase hq), Matrix.one_apply]
    rw [prod_congr rfl this, prod_ite_zero]
    simp only [prod_const_one]
    refine if_congr ⟨fun h q hq hqi => ?_, fun h q hq => ?_⟩ rfl rfl
    · have := h ⟨q, hq⟩ (by simp [Fin.ext_iff]; simpa using hqi)
      exact congrArg Fin.val this
    · apply Fin.ext
      exact h q q.2 (by simpa [Fin.ext_iff] using hq)
  rw [h1, Function.update_self]
  have hg : ∀ x : ℕ, gather n [i] x = qubit n i x := by intro x; simp [gather]
  split
  · rw [mul_one]
    congr 1 <;> exact Fin.ext (hg _)
  · rw [mul_zero]

theorem pauli_X {i : ℕ} (hi : i < n) : pauli (Function.update (fun _ => 0) ⟨i, hi⟩ 1) = embed n [i] Gate.X := by
  rw [embed_single hi]
  unfold pauli
  congr 1
  funext q
  by_cases hq : q = ⟨i, hi⟩
  · subst hq; simp [Noise.letter]
  · simp [Function.update_of_ne hq, Noise.letter]

theorem pauli_Y {i : ℕ} (hi : i < n) : pauli (Function.update (fun _ => 0) ⟨i, hi⟩ 2) = embed n [i] Gate.Y := by
  rw [embed_single hi]
  unfold pauli
  congr 1
  funext q
  by_cases hq : q = ⟨i, hi⟩
  · subst hq; simp [Noise.letter]
  · simp [Function.update_of_ne hq, Noise.letter]

theorem pauli_XX {i j : ℕ} (hi : i < n) (hj : j < n) (hij : i ≠ j) :
    pauli (Function.update (Function.update (fun _ => 0) ⟨i, hi⟩ 1) ⟨j, hj⟩ 1) =
      embed n [i] Gate.X * embed n [j] Gate.X := by
  rw [embed_single hi, embed_single hj, tens_mul]
  unfold pauli
  congr 1
  funext q
  by_cases hq : q = ⟨j, hj⟩
  · subst hq
    have : (⟨j, hj⟩ : Fin n) ≠ ⟨i, hi⟩ := by simpa [Fin.ext_iff] using hij.symm
    simp [Noise.letter, Function.update_of_ne this]
  by_cases hq' : q = ⟨i, hi⟩
  · subst hq'; simp [Function.update_of_ne hq, Noise.letter]
  · simp [Function.update_of_ne hq, Function.update_of_ne hq', Noise.letter]

end Stoq
