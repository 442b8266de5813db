import Verif.Proofs.Strings
import Verif.Proofs.Gates
import Mathlib.NumberTheory.Niven
import Mathlib.Topology.Instances.AddCircle.DenseSubgroup

/-! # Universal sets of gates -/

namespace Stoq

open Matrix Complex
open scoped Matrix.Norms.L2Operator

section
variable {d : ℕ} {S : Set (Matrix (Fin d) (Fin d) ℂ)} {A : Matrix (Fin d) (Fin d) ℂ}

theorem evolution_eq_rot (h : A * A = 1) (t : ℝ) : evolution A t = Gate.rot A (-2 * t) := by
  rw [Gate.rot_eq_exp h]
  unfold evolution
  congr 2
  push_cast; ring

theorem evolution_nsmul (A : Matrix (Fin d) (Fin d) ℂ) (t : ℝ) (N : ℕ) : evolution A (N * t) = evolution A t ^ N := by
  unfold evolution
  rw [← Matrix.exp_nsmul, ← Nat.cast_smul_eq_nsmul ℂ, smul_smul]
  congr 2
  push_cast; ring

/-- Short times suffice. -/
theorem Generating.of_short (hA : A.IsHermitian) {a : ℝ} (ha : 0 < a)
    (h : ∀ t, 0 ≤ t → t < a → Approximated S (evolution A t)) : Generating S A := by
  have hpos : ∀ t, 0 ≤ t → Approximated S (evolution A t) := by
    intro t ht
    obtain ⟨N, hN⟩ := exists_nat_gt (t / a)
    rw [div_lt_iff₀ ha] at hN
    have hN0 : (0 : ℝ) < N := by
      by_contra hcon
      have : (N : ℝ) = 0 := le_antisymm (not_lt.mp hcon) N.cast_nonneg
      rw [this] at hN; linarith
    rw [show t = N * (t / N) by field_simp, evolution_nsmul]
    exact (h _ (by positivity) (by rw [div_lt_iff₀ hN0]; linarith)).pow N
  refine ⟨hA, fun t => ?_⟩
  rcases le_total 0 t with ht | ht
  · exact hpos t ht
  · have := (hpos (-t) (by linarith)).ct
    rwa [evolution_ct hA, neg_neg] at this

theorem continuous_evolution (A : Matrix (Fin d) (Fin d) ℂ) : Continuous fun t : ℝ => evolution A t := by
  unfold evolution
  have : NormedAlgebra ℚ (Matrix (Fin d) (Fin d) ℂ) := NormedAlgebra.restrictScalars ℚ ℂ _
  refine NormedSpace.exp_continuous.comp ?_
  fun_prop

/-- One time that is an irrational multiple of `π` suffices. -/
theorem Generating.of_irrational (hA : A.IsHermitian) (h2 : A * A = 1) {a : ℝ} (ha : Irrational (a / Real.pi))
    (h : Approximated S (evolution A a)) : Generating S A := by
  have hirr : Irrational (a / (2 * Real.pi)) := by
    have := ha.div_natCast (m := 2) (by norm_num)
    rwa [div_div, mul_comm Real.pi] at this
  have hdense := dense_addSubgroupClosure_pair_iff.mpr hirr
  have hmem : ∀ x ∈ AddSubgroup.closure {a, 2 * Real.pi}, Approximated S (evolution A x) := by
    intro x hx
    induction hx using AddSubgroup.closure_induction with
    | mem x hx =>
      rcases hx with rfl | hx
      · exact h
      · rw [Set.mem_singleton_iff.mp hx, evolution_eq_rot h2]
        unfold Gate.rot
        rw [show -2 * (2 * Real.pi) / 2 = -(2 * Real.pi) by ring, Real.cos_neg, Real.sin_neg, Real.cos_two_pi,
          Real.sin_two_pi]
        simpa using Approximated.one
    | zero => rw [evolution_zero]; exact Approximated.one
    | add x y _ _ hx hy => rw [evolution_add]; exact hx.mul hy
    | neg x _ hx => have := hx.ct; rwa [evolution_ct hA] at this
  refine ⟨hA, fun t => Approximated.closed (evolution_unitary hA t) fun ε hε => ?_⟩
  obtain ⟨η, hη, hc⟩ := Metric.continuous_iff.mp (continuous_evolution A) t ε hε
  obtain ⟨x, hx, hd⟩ := hdense.exists_dist_lt t hη
  refine ⟨evolution A x, hmem x hx, ?_⟩
  have := hc x (by rwa [dist_comm])
  rw [dist_eq_norm] at this
  exact this.le

end

section
variable {n : ℕ} {S : Set (Matrix (Fin (2 ^ n)) (Fin (2 ^ n)) ℂ)}

theorem embed_add {a : List ℕ} (A B : Matrix (Fin (2 ^ a.length)) (Fin (2 ^ a.length)) ℂ) :
    embed n a (A + B) = embed n a A + embed n a B := by
  ext r c
  simp only [embed, Matrix.add_apply]
  split <;> simp

/-- A gate on one qubit. -/
def site (n i : ℕ) (A : Matrix (Fin 2) (Fin 2) ℂ) : Matrix (Fin (2 ^ n)) (Fin (2 ^ n)) ℂ := embed n [i] A

/-- A gate on two qubits. -/
def duo (n i j : ℕ) (A : Matrix (Fin 4) (Fin 4) ℂ) : Matrix (Fin (2 ^ n)) (Fin (2 ^ n)) ℂ := embed n [i, j] A

theorem site_mul {i : ℕ} (hi : i < n) (A B : Matrix (Fin 2) (Fin 2) ℂ) :
    site n i (A * B) = site n i A * site n i B :=
  embed_mul (a := [i]) (by simp) (by simpa using hi) A B

theorem site_one {i : ℕ} (hi : i < n) : site n i 1 = 1 := embed_one (a := [i]) (by simp) (by simpa using hi)

theorem site_smul {i : ℕ} (c : ℂ) (A : Matrix (Fin 2) (Fin 2) ℂ) : site n i (c • A) = c • site n i A :=
  embed_smul (a := [i]) c A

theorem site_add {i : ℕ} (A B : Matrix (Fin 2) (Fin 2) ℂ) : site n i (A + B) = site n i A + site n i B :=
  embed_add (a := [i]) A B

theorem site_ct {i : ℕ} (A : Matrix (Fin 2) (Fin 2) ℂ) : site n i Aᴴ = (site n i A)ᴴ :=
  embed_conjTranspose (a := [i]) A

theorem duo_mul {i j : ℕ} (hij : i ≠ j) (hi : i < n) (hj : j < n) (A B : Matrix (Fin 4) (Fin 4) ℂ) :
    duo n i j (A * B) = duo n i j A * duo n i j B :=
  embed_mul (a := [i, j]) (by simpa using hij) (by simp [hi, hj]) A B

theorem duo_ct {i j : ℕ} (A : Matrix (Fin 4) (Fin 4) ℂ) : duo n i j Aᴴ = (duo n i j A)ᴴ :=
  embed_conjTranspose (a := [i, j]) A

theorem duo_smul {i j : ℕ} (c : ℂ) (A : Matrix (Fin 4) (Fin 4) ℂ) : duo n i j (c • A) = c • duo n i j A :=
  embed_smul (a := [i, j]) c A

theorem site_rot {i : ℕ} (hi : i < n) (A : Matrix (Fin 2) (Fin 2) ℂ) (θ : ℝ) :
    site n i (Gate.rot A θ) = Gate.rot (site n i A) θ := by
  unfold Gate.rot
  rw [sub_eq_add_neg, sub_eq_add_neg, ← neg_smul, ← neg_smul, site_add, site_smul, site_smul, site_one hi]

theorem site_hermitian {i : ℕ} {A : Matrix (Fin 2) (Fin 2) ℂ} (hA : Aᴴ = A) : (site n i A).IsHermitian := by
  unfold IsHermitian
  rw [← site_ct, hA]

theorem site_sq {i : ℕ} (hi : i < n) {A : Matrix (Fin 2) (Fin 2) ℂ} (hA : A * A = 1) :
    site n i A * site n i A = 1 := by rw [← site_mul hi, hA, site_one hi]

theorem duo_rot_XX {i j : ℕ} (hij : i ≠ j) (hi : i < n) (hj : j < n) (θ : ℝ) :
    duo n i j (Gate.rot Gate.XX (2 * θ)) = NormedSpace.exp ((-I * θ) • (site n i Gate.X * site n j Gate.X)) :=
  Gate.embed_rot_XX hij hi hj θ

theorem duo_XX {i j : ℕ} (hij : i ≠ j) (hi : i < n) (hj : j < n) :
    duo n i j Gate.XX = site n i Gate.X * site n j Gate.X := Gate.embed_XX hij hi hj

theorem site_pair_sq {i j : ℕ} (hij : i ≠ j) (hi : i < n) (hj : j < n) :
    (site n i Gate.X * site n j Gate.X) * (site n i Gate.X * site n j Gate.X) = 1 := Gate.pair_sq hij hi hj

theorem pauli_site_X {i : ℕ} (hi : i < n) : pauli (Function.update (fun _ => 0) ⟨i, hi⟩ 1) = site n i Gate.X :=
  pauli_X hi

theorem pauli_site_Y {i : ℕ} (hi : i < n) : pauli (Function.update (fun _ => 0) ⟨i, hi⟩ 2) = site n i Gate.Y :=
  pauli_Y hi

theorem pauli_site_XX {i j : ℕ} (hi : i < n) (hj : j < n) (hij : i ≠ j) :
    pauli (Function.update (Function.update (fun _ => 0) ⟨i, hi⟩ 1) ⟨j, hj⟩ 1) = site n i Gate.X * site n j Gate.X :=
  pauli_XX hi hj hij

/-- The rotations of one qubit about an axis, by angles of a full turn. -/
theorem Generating.of_rot {i : ℕ} (hi : i < n) {A : Matrix (Fin 2) (Fin 2) ℂ} (hA : Aᴴ = A) (h2 : A * A = 1)
    (h : ∀ θ, 0 ≤ θ → θ < 2 * Real.pi → Approximated S (site n i (Gate.rot A θ))) :
    Generating S (site n i A) := by
  have hg : Generating S (-(site n i A)) := by
    refine Generating.of_short (site_hermitian hA).neg (a := Real.pi) Real.pi_pos fun t h0 h1 => ?_
    rw [evolution_eq_rot (by rw [Matrix.neg_mul, Matrix.mul_neg, neg_neg, site_sq hi h2])]
    have := h (2 * t) (by linarith) (by linarith)
    rw [site_rot hi] at this
    convert this using 1
    unfold Gate.rot
    rw [show -2 * t / 2 = -t by ring, show 2 * t / 2 = t by ring, Real.cos_neg, Real.sin_neg]
    push_cast
    module
  have := hg.neg
  rwa [neg_neg] at this

/-- One rotation by an irrational multiple of `π`. -/
theorem Generating.of_rot_irrational {i : ℕ} (hi : i < n) {A : Matrix (Fin 2) (Fin 2) ℂ} (hA : Aᴴ = A) (h2 : A * A = 1)
    {θ : ℝ} (hθ : Irrational (θ / Real.pi)) (h : Approximated S (site n i (Gate.rot A θ))) :
    Generating S (site n i A) := by
  refine Generating.of_irrational (site_hermitian hA) (site_sq hi h2) (a := -(θ / 2)) ?_ ?_
  · have := (hθ.div_natCast (m := 2) (by norm_num)).neg
    rwa [div_div, mul_comm Real.pi, ← div_div, ← neg_div] at this
  · rw [evolution_eq_rot (site_sq hi h2), show -2 * -(θ / 2) = θ by ring, ← site_rot hi]
    exact h

theorem pair_hermitian {i j : ℕ} (hij : i ≠ j) (hi : i < n) (hj : j < n) :
    (site n i Gate.X * site n j Gate.X).IsHermitian := by
  rw [← pauli_site_XX hi hj hij]
  exact pauli_hermitian _

/-- The `xx` gates on two qubits. -/
theorem Generating.of_xx {i j : ℕ} (hij : i ≠ j) (hi : i < n) (hj : j < n)
    (h : ∀ θ, 0 ≤ θ → θ < 2 * Real.pi → Approximated S (duo n i j (Gate.rot Gate.XX (2 * θ)))) :
    Generating S (site n i Gate.X * site n j Gate.X) := by
  have hg : Generating S (-(site n i Gate.X * site n j Gate.X)) := by
    refine Generating.of_short (pair_hermitian hij hi hj).neg (a := 2 * Real.pi) (by positivity) fun t h0 h1 => ?_
    have := h t h0 h1
    rw [duo_rot_XX hij hi hj] at this
    convert this using 1
    unfold evolution
    rw [smul_neg, ← neg_smul]
    congr 2
    ring
  have := hg.neg
  rwa [neg_neg] at this

theorem Generating.of_xx_irrational {i j : ℕ} (hij : i ≠ j) (hi : i < n) (hj : j < n) {θ : ℝ}
    (hθ : Irrational (θ / Real.pi)) (h : Approximated S (duo n i j (Gate.rot Gate.XX (2 * θ)))) :
    Generating S (site n i Gate.X * site n j Gate.X) := by
  refine Generating.of_irrational (pair_hermitian hij hi hj) (site_pair_sq hij hi hj) (a := -θ) ?_ ?_
  · rw [neg_div]; exact hθ.neg
  · rw [duo_rot_XX hij hi hj] at h
    convert h using 1
    unfold evolution
    congr 2
    push_cast; ring

/-- Rotations about `X` and `Y` on every qubit and couplings `X ⊗ X` of enough pairs of qubits suffice. -/
theorem approximated_of_gates (hX : ∀ i < n, Generating S (site n i Gate.X))
    (hY : ∀ i < n, Generating S (site n i Gate.Y))
    (hXX : ∀ i < n, ∀ j < n, Relation.ReflTransGen (fun a b => a < n ∧ b < n ∧ a ≠ b ∧
      Generating S (site n a Gate.X * site n b Gate.X)) i j)
    {U : Matrix (Fin (2 ^ n)) (Fin (2 ^ n)) ℂ} (hU : U ∈ unitaryGroup (Fin (2 ^ n)) ℂ) : Approximated S U := by
  have hX' : ∀ i : Fin n, Generating S (pauli (Function.update (fun _ : Fin n => 0) i 1)) := fun i => by
    rw [pauli_site_X i.2]; exact hX i i.2
  have hY' : ∀ i : Fin n, Generating S (pauli (Function.update (fun _ : Fin n => 0) i 2)) := fun i => by
    rw [pauli_site_Y i.2]; exact hY i i.2
  have key : ∀ i : Fin n, ∀ j : ℕ, Relation.ReflTransGen (fun a b => a < n ∧ b < n ∧ a ≠ b ∧
      Generating S (site n a Gate.X * site n b Gate.X)) i j → ∀ hj : j < n, i ≠ ⟨j, hj⟩ →
      Generating S (pauli (Function.update (Function.update (fun _ : Fin n => 0) i 1) ⟨j, hj⟩ 1)) := by
    intro i j h
    induction h with
    | refl => intro hj hne; exact absurd rfl hne
    | @tail b c _ hbc ih =>
      intro hc hne
      obtain ⟨hb, -, hbc', hg⟩ := hbc
      rw [← pauli_site_XX hb hc hbc'] at hg
      by_cases hib : i = ⟨b, hb⟩
      · rw [hib]; exact hg
      · exact Generating.pair_trans hX' hY' hib (fun h => hbc' (congrArg Fin.val h)) hne (ih hb hib) hg
  exact approximated_of_letters hX' hY' (fun i j hij => key i j (hXX i i.2 j j.2) j.2 hij) hU

/-! ## Hadamard, T and controlled not -/

/-- Matrix of two qubits that acts as `A` on the first and as `B` on the second. -/
def both (A B : Matrix (Fin 2) (Fin 2) ℂ) : Matrix (Fin 4) (Fin 4) ℂ := fun r c =>
  A ⟨r.val / 2, by omega⟩ ⟨c.val / 2, by omega⟩ * B ⟨r.val % 2, by omega⟩ ⟨c.val % 2, by omega⟩

theorem duo_both {i j : ℕ} (hij : i ≠ j) (hi : i < n) (hj : j < n) (A B : Matrix (Fin 2) (Fin 2) ℂ) :
    duo n i j (both A B) = site n i A * site n j B := by
  unfold site duo
  ext r s
  rw [embed_mul_disjoint (a := [i]) (b := [j]) (by simpa using hij) A B (by simpa using hi) (by simpa using hj)]
  change (if AgreeOff n [i, j] r s then _ else _) = if AgreeOff n [i, j] r s then _ else _
  refine if_congr Iff.rfl ?_ rfl
  have h1 : ∀ q c, gather n [q] c = qubit n q c := by intro q c; simp [gather]
  have h2 : ∀ c, gather n [i, j] c = 2 * qubit n i c + qubit n j c := by intro c; simp [gather]
  have h3 := fun q c => qubit_lt n q c
  unfold both
  congr 2 <;> apply Fin.ext <;> simp only [h1, h2] <;> [skip; skip; skip; skip]
  all_goals
    have a1 := h3 i r
    have a2 := h3 i s
    have a3 := h3 j r
    have a4 := h3 j s
    omega

theorem cnot_conj : Gate.CNOT * both Gate.X 1 * Gate.CNOTᴴ = Gate.XX := by
  ext i j
  fin_cases i <;> fin_cases j <;>
    simp [Matrix.mul_apply, Fin.sum_univ_four, conjTranspose_apply, Gate.CNOT, Gate.XX, both, Gate.X, Matrix.one_apply]

theorem Generating.of_cnot {i j : ℕ} (hij : i ≠ j) (hi : i < n) (hj : j < n)
    (hX : Generating S (site n i Gate.X)) (h : Approximated S (duo n i j Gate.CNOT)) :
    Generating S (site n i Gate.X * site n j Gate.X) := by
  have h1 := hX.conj h
  have e1 : site n i Gate.X = duo n i j (both Gate.X 1) := by
    rw [duo_both hij hi hj, site_one hj, Matrix.mul_one]
  have e2 : duo n i j (Gate.CNOT * both Gate.X 1 * Gate.CNOTᴴ) = duo n i j Gate.XX := by rw [cnot_conj]
  have e3 : duo n i j (Gate.CNOT * both Gate.X 1 * Gate.CNOTᴴ) =
      duo n i j Gate.CNOT * duo n i j (both Gate.X 1) * (duo n i j Gate.CNOT)ᴴ := by
    rw [duo_mul hij hi hj, duo_mul hij hi hj, duo_ct]
  rw [e1, ← e3, e2, duo_XX hij hi hj] at h1
  exact h1

/-- The angle of the rotation `T H T H`. -/
noncomputable def htAngle : ℝ := Real.arccos ((2 + √2) / 4)

theorem htAngle_irrational : Irrational (htAngle / Real.pi) := by
  rintro ⟨q, hq⟩
  have hs : (√2) ^ 2 = 2 := Real.sq_sqrt (by norm_num)
  have hs0 : 0 ≤ √2 := Real.sqrt_nonneg 2
  have hs1 : √2 ≤ 2 := by nlinarith
  have hcos : Real.cos htAngle = (2 + √2) / 4 := Real.cos_arccos (by linarith) (by linarith)
  have hang : htAngle = q * Real.pi := by rw [hq]; field_simp
  have h1 : IsIntegral ℤ (2 * Real.cos htAngle) := by
    rw [hang]
    exact Real.isIntegral_two_mul_cos_rat_mul_pi q
  have h2 : IsIntegral ℤ ((2 * Real.cos htAngle - 1) ^ 2) := (h1.sub isIntegral_one).pow 2
  have h3 : (2 * Real.cos htAngle - 1) ^ 2 = ((1 / 2 : ℚ) : ℝ) := by
    rw [hcos]; push_cast; nlinarith
  obtain ⟨k, hk⟩ := (h2.exists_int_iff_exists_rat).mp ⟨_, h3⟩
  rw [h3] at hk
  have : (1 : ℝ) = 2 * k := by rw [← hk]; norm_num
  have h4 : (1 : ℤ) = 2 * k := by exact_mod_cast this
  omega

/-- The axis of the rotation `T H T H`, not normalised. -/
noncomputable def htAxis : Matrix (Fin 2) (Fin 2) ℂ :=
  ((Real.cos (Real.pi / 8) * Real.sin (Real.pi / 8) : ℝ) : ℂ) • Gate.X + ((Real.sin (Real.pi / 8) ^ 2 : ℝ) : ℂ) • Gate.Y +
    ((Real.cos (Real.pi / 8) * Real.sin (Real.pi / 8) : ℝ) : ℂ) • Gate.Z

theorem cos_sq_pi_div_eight : Real.cos (Real.pi / 8) ^ 2 = (2 + √2) / 4 := by
  rw [Real.cos_sq, show 2 * (Real.pi / 8) = Real.pi / 4 by ring, Real.cos_pi_div_four]
  ring

theorem cos_htAngle : Real.cos htAngle = Real.cos (Real.pi / 8) ^ 2 := by
  have hs : (√2) ^ 2 = 2 := Real.sq_sqrt (by norm_num)
  have hs0 : 0 ≤ √2 := Real.sqrt_nonneg 2
  rw [cos_sq_pi_div_eight]
  exact Real.cos_arccos (by linarith) (by nlinarith)

theorem sin_htAngle_sq : Real.sin htAngle ^ 2 =
    2 * (Real.cos (Real.pi / 8) * Real.sin (Real.pi / 8)) ^ 2 + (Real.sin (Real.pi / 8) ^ 2) ^ 2 := by
  have h1 := Real.sin_sq_add_cos_sq htAngle
  have h2 := Real.sin_sq_add_cos_sq (Real.pi / 8)
  rw [cos_htAngle] at h1
  have h3 : Real.sin (Real.pi / 8) ^ 2 = 1 - Real.cos (Real.pi / 8) ^ 2 := by linarith
  rw [mul_pow, h3]
  linear_combination h1

theorem sin_htAngle_ne : Real.sin htAngle ≠ 0 := by
  have h : 0 < Real.sin (Real.pi / 8) := Real.sin_pos_of_pos_of_lt_pi (by positivity) (by linarith [Real.pi_pos])
  have := sin_htAngle_sq
  intro h0
  rw [h0] at this
  have h4 : 0 < (Real.sin (Real.pi / 8) ^ 2) ^ 2 := by positivity
  nlinarith [sq_nonneg (Real.cos (Real.pi / 8) * Real.sin (Real.pi / 8))]

theorem htAxis_sq : htAxis * htAxis = ((Real.sin htAngle ^ 2 : ℝ) : ℂ) • (1 : Matrix (Fin 2) (Fin 2) ℂ) := by
  rw [sin_htAngle_sq]
  unfold htAxis
  generalize Real.cos (Real.pi / 8) * Real.sin (Real.pi / 8) = x
  generalize Real.sin (Real.pi / 8) ^ 2 = y
  ext i j
  fin_cases i <;> fin_cases j <;> simp [Matrix.mul_apply, Gate.X, Gate.Y, Gate.Z] <;> ring_nf <;> simp only [I_sq] <;> ring

theorem htAxis_ct : htAxisᴴ = htAxis := by
  unfold htAxis
  simp only [conjTranspose_add, conjTranspose_smul, Gate.X_ct, Gate.Y_ct, Gate.Z_ct, Complex.star_def, conj_ofReal]

theorem rot_Z_mul_rot_X : Gate.rot Gate.Z (Real.pi / 4) * Gate.rot Gate.X (Real.pi / 4) =
    ((Real.cos (Real.pi / 8) ^ 2 : ℝ) : ℂ) • (1 : Matrix (Fin 2) (Fin 2) ℂ) - I • htAxis := by
  unfold Gate.rot htAxis
  rw [show Real.pi / 4 / 2 = Real.pi / 8 by ring]
  generalize Real.cos (Real.pi / 8) = x
  generalize Real.sin (Real.pi / 8) = y
  ext i j
  fin_cases i <;> fin_cases j <;> simp [Matrix.mul_apply, Gate.X, Gate.Y, Gate.Z] <;> ring_nf

theorem hadamard_conj (A : Matrix (Fin 2) (Fin 2) ℂ) : Gate.H * A * Gate.Hᴴ =
    (1 / 2 : ℂ) • ((Gate.X + Gate.Z) * A * (Gate.X + Gate.Z)) := by
  have h2 : (√2 * √2 : ℝ) = 2 := Real.mul_self_sqrt (by norm_num)
  have hx : ((1 / √2 : ℝ) : ℂ) * ((1 / √2 : ℝ) : ℂ) = 1 / 2 := by
    rw [← ofReal_mul, div_mul_div_comm, h2]; norm_num
  unfold Gate.H
  rw [conjTranspose_smul, conjTranspose_add, Gate.X_ct, Gate.Z_ct, Complex.star_def, conj_ofReal, smul_mul_assoc,
    smul_mul_smul_comm, hx]

theorem hadamard_rot_Z (θ : ℝ) : Gate.H * Gate.rot Gate.Z θ * Gate.Hᴴ = Gate.rot Gate.X θ := by
  rw [hadamard_conj]
  unfold Gate.rot
  generalize Real.cos (θ / 2) = x
  generalize Real.sin (θ / 2) = y
  ext i j
  fin_cases i <;> fin_cases j <;>
    simp [Matrix.mul_assoc, Matrix.mul_apply, Fin.sum_univ_two, Gate.X, Gate.Z, Matrix.one_apply, -Matrix.smul_of,
      -Matrix.cons_mul, -Matrix.add_cons] <;> ring

theorem hadamard_htAxis : htAxis - Gate.H * htAxis * Gate.Hᴴ = ((2 * Real.sin (Real.pi / 8) ^ 2 : ℝ) : ℂ) • Gate.Y := by
  rw [hadamard_conj]
  unfold htAxis
  generalize Real.cos (Real.pi / 8) * Real.sin (Real.pi / 8) = x
  generalize Real.sin (Real.pi / 8) ^ 2 = y
  ext i j
  fin_cases i <;> fin_cases j <;> simp [Gate.X, Gate.Y, Gate.Z] <;> ring

theorem rot_Z_conj_Y (θ : ℝ) : Gate.rot Gate.Z θ * Gate.Y * (Gate.rot Gate.Z θ)ᴴ =
    (Real.cos θ : ℂ) • Gate.Y - (Real.sin θ : ℂ) • Gate.X := by
  have h1 : Real.cos θ = Real.cos (θ / 2) ^ 2 - Real.sin (θ / 2) ^ 2 := by
    rw [show θ = 2 * (θ / 2) by ring, Real.cos_two_mul', show 2 * (θ / 2) / 2 = θ / 2 by ring]
  have h2 : Real.sin θ = 2 * Real.sin (θ / 2) * Real.cos (θ / 2) := by
    rw [show θ = 2 * (θ / 2) by ring, Real.sin_two_mul, show 2 * (θ / 2) / 2 = θ / 2 by ring]
  rw [Gate.rot_ct Gate.Z_ct, h1, h2]
  unfold Gate.rot
  rw [neg_div, Real.cos_neg, Real.sin_neg]
  generalize Real.cos (θ / 2) = x
  generalize Real.sin (θ / 2) = y
  ext i j
  fin_cases i <;> fin_cases j <;> simp [Matrix.mul_apply, Gate.X, Gate.Y, Gate.Z] <;> ring_nf <;>
    simp only [I_sq, I_pow_three] <;> ring

/-- Hadamard and T gates on a qubit generate the rotations about `X` and `Y`. -/
theorem Generating.of_ht {i : ℕ} (hi : i < n) (hH : Approximated S (site n i Gate.H))
    (hT : Approximated S (site n i (Gate.rot Gate.Z (Real.pi / 4)))) :
    Generating S (site n i Gate.X) ∧ Generating S (site n i Gate.Y) := by
  have hs := sin_htAngle_ne
  have hsc : (Real.sin htAngle : ℂ) ≠ 0 := by exact_mod_cast hs
  set A : Matrix (Fin 2) (Fin 2) ℂ := ((Real.sin htAngle)⁻¹ : ℂ) • htAxis with hA
  have hAct : Aᴴ = A := by
    rw [hA, conjTranspose_smul, htAxis_ct, ← ofReal_inv, Complex.star_def, conj_ofReal]
  have hAsq : A * A = 1 := by
    rw [hA, smul_mul_smul_comm, htAxis_sq, smul_smul]
    rw [show ((Real.sin htAngle : ℂ)⁻¹ * (Real.sin htAngle : ℂ)⁻¹) * ((Real.sin htAngle ^ 2 : ℝ) : ℂ) = 1 by
      rw [ofReal_pow]; field_simp, one_smul]
  have hrot : Gate.rot A (2 * htAngle) = Gate.rot Gate.Z (Real.pi / 4) * (Gate.H * Gate.rot Gate.Z (Real.pi / 4) * Gate.Hᴴ) := by
    rw [hadamard_rot_Z, rot_Z_mul_rot_X, ← cos_htAngle, Gate.rot, show 2 * htAngle / 2 = htAngle by ring, hA, smul_smul,
      mul_assoc, mul_inv_cancel₀ hsc, mul_one]
  have happ : Approximated S (site n i (Gate.rot A (2 * htAngle))) := by
    rw [hrot, site_mul hi, site_mul hi, site_mul hi, site_ct]
    exact hT.mul ((hH.mul hT).mul hH.ct)
  have hirr : Irrational (2 * htAngle / Real.pi) := by
    have := htAngle_irrational.natCast_mul (m := 2) (by norm_num)
    rwa [← mul_div_assoc] at this
  have hgA := Generating.of_rot_irrational hi hAct hAsq hirr happ
  have hB : Generating S (site n i htAxis) := by
    have := hgA.smul (Real.sin htAngle)
    rwa [hA, site_smul, smul_smul, mul_inv_cancel₀ hsc, one_smul] at this
  have hY : Generating S (site n i Gate.Y) := by
    have h1 := hB.add (hB.conj hH).neg
    have h2 : site n i htAxis + -(site n i Gate.H * site n i htAxis * (site n i Gate.H)ᴴ) =
        site n i (((2 * Real.sin (Real.pi / 8) ^ 2 : ℝ) : ℂ) • Gate.Y) := by
      rw [← hadamard_htAxis, ← site_ct, ← site_mul hi, ← site_mul hi, sub_eq_add_neg, site_add,
        ← neg_one_smul ℂ (Gate.H * htAxis * Gate.Hᴴ), site_smul, neg_one_smul]
    rw [h2, site_smul] at h1
    have h3 := h1.smul (2 * Real.sin (Real.pi / 8) ^ 2)⁻¹
    have h4 : 0 < Real.sin (Real.pi / 8) := Real.sin_pos_of_pos_of_lt_pi (by positivity) (by linarith [Real.pi_pos])
    have h5 : (2 * Real.sin (Real.pi / 8) ^ 2 : ℝ) ≠ 0 := by positivity
    rwa [smul_smul, ← ofReal_mul, inv_mul_cancel₀ h5, ofReal_one, one_smul] at h3
  refine ⟨?_, hY⟩
  have h1 := (hY.conj hT).add (hY.smul (-Real.cos (Real.pi / 4)))
  have h2 : site n i (Gate.rot Gate.Z (Real.pi / 4)) * site n i Gate.Y * (site n i (Gate.rot Gate.Z (Real.pi / 4)))ᴴ +
      ((-Real.cos (Real.pi / 4) : ℝ) : ℂ) • site n i Gate.Y = ((-Real.sin (Real.pi / 4) : ℝ) : ℂ) • site n i Gate.X := by
    rw [← site_ct, ← site_mul hi, ← site_mul hi, rot_Z_conj_Y, ← site_smul, ← site_add, ← site_smul]
    congr 1
    push_cast
    module
  rw [h2] at h1
  have h3 := h1.smul (-Real.sin (Real.pi / 4))⁻¹
  have h5 : (-Real.sin (Real.pi / 4) : ℝ) ≠ 0 := by rw [Real.sin_pi_div_four]; simp
  rwa [smul_smul, ← ofReal_mul, inv_mul_cancel₀ h5, ofReal_one, one_smul] at h3

end

end Stoq
