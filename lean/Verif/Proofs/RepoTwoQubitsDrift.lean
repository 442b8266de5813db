import Verif.Proofs.RepoTwoQubitsApart
import Verif.Props.QdriftDistance

/-! # The test of a Hamiltonian of two qubits: the gates of the QDRIFT sequence -/

namespace Stoq

open Matrix Tests MeasureTheory

open scoped Matrix.Norms.L2Operator

namespace Tests

/-! ## The first two draws -/

section draws

variable {k : ℕ} {p : Fin k → ℝ} {shot : Set.Ico (0 : ℝ) 1 → Fin k}

theorem shot_probability (hm : Measurable shot) (hp : ∀ a : Fin k → ℝ, ∫ u, a (shot u) ∂uniformUnit = ∑ i, p i * a i) (i : Fin k) :
    uniformUnit {u | shot u = i} = ENNReal.ofReal (p i) := by
  classical
  have h := hp fun j => if j = i then 1 else 0
  simp only [mul_ite, mul_one, mul_zero, Finset.sum_ite_eq', Finset.mem_univ, if_true] at h
  have hms : MeasurableSet {u | shot u = i} := hm (measurableSet_singleton i)
  have e : (fun u => if shot u = i then (1 : ℝ) else 0) = Set.indicator {u | shot u = i} 1 := by
    funext u
    rw [Set.indicator_apply]
    rfl
  rw [e, integral_indicator_one hms] at h
  rw [← h, measureReal_def, ENNReal.ofReal_toReal (measure_ne_top _ _)]

/-- A tape that begins with two numbers. -/
def twice {X : Type} (u v : X) (ω : ℕ → X) (j : ℕ) : X := if j = 0 then u else if j = 1 then v else ω (j - 2)

theorem two_draws (hm : Measurable shot) (hp : ∀ a : Fin k → ℝ, ∫ u, a (shot u) ∂uniformUnit = ∑ i, p i * a i) (h0 : ∀ i, 0 ≤ p i) {q : ℝ}
    (h1 : ∀ i j, i ≠ j → 2 * (p i * p j) ≤ q) (h2 : ∀ i, p i * p i ≤ q) {S : Set (ℕ → Set.Ico (0 : ℝ) 1)} (hS : MeasurableSet S)
    (h : ∀ ω, ∃ i j, ∀ u v, twice u v ω ∈ S → (shot u = i ∧ shot v = j) ∨ (shot u = j ∧ shot v = i)) :
    uniformTape S ≤ ENNReal.ofReal q := by
  have hc : Measurable (fun x : (Set.Ico (0 : ℝ) 1 × Set.Ico (0 : ℝ) 1) × (ℕ → Set.Ico (0 : ℝ) 1) => twice x.1.1 x.1.2 x.2) := by
    refine measurable_pi_lambda _ fun j => ?_
    unfold twice
    by_cases h : j = 0
    · simp only [h, if_true]; fun_prop
    · by_cases h' : j = 1
      · simp only [h', if_true]; norm_num; fun_prop
      · simp only [h, h', if_false]; fun_prop
  have mp1 := measurePreserving_uncons uniformUnit
  have mp2 := (MeasurePreserving.id uniformUnit).prod mp1
  have mp3 := (measurePreserving_prodAssoc uniformUnit uniformUnit (Measure.infinitePi fun _ : ℕ => uniformUnit)).symm
  have mp := mp3.comp (mp2.comp mp1)
  set T := {x : (Set.Ico (0 : ℝ) 1 × Set.Ico (0 : ℝ) 1) × (ℕ → Set.Ico (0 : ℝ) 1) | twice x.1.1 x.1.2 x.2 ∈ S} with hT
  have hTm : MeasurableSet T := hc hS
  have hpre := mp.measure_preimage hTm.nullMeasurableSet
  have hset : S ⊆ (⇑MeasurableEquiv.prodAssoc.symm ∘ Prod.map id (fun ω : ℕ → Set.Ico (0 : ℝ) 1 => (ω 0, fun i => ω (1 + i))) ∘
      fun ω : ℕ → Set.Ico (0 : ℝ) 1 => (ω 0, fun i => ω (1 + i))) ⁻¹' T := by
    intro ω hω
    change twice (ω 0) (ω (1 + 0)) (fun i => ω (1 + (1 + i))) ∈ S
    convert hω using 1
    funext j
    unfold twice
    rcases j with _ | _ | j
    · rfl
    · rfl
    · rw [if_neg (by omega), if_neg (by omega)]
      change ω (1 + (1 + (j + 2 - 2))) = ω (j + 2)
      rw [show 1 + (1 + (j + 2 - 2)) = j + 2 by omega]
  refine (measure_mono hset).trans (hpre.le.trans ?_)
  rw [Measure.prod_apply_symm hTm]
  have hb : ∀ ω, (uniformUnit.prod uniformUnit) ((fun x => (x, ω)) ⁻¹' T) ≤ ENNReal.ofReal q := by
    intro ω
    obtain ⟨i, j, hij⟩ := h ω
    by_cases he : i = j
    · subst he
      refine (measure_mono (t := {u | shot u = i} ×ˢ {u | shot u = i}) ?_).trans ?_
      · rintro ⟨u, v⟩ huv
        rcases hij u v huv with ⟨a, b⟩ | ⟨a, b⟩ <;> exact ⟨a, b⟩
      · rw [Measure.prod_prod, shot_probability hm hp, ← ENNReal.ofReal_mul (h0 i)]
        exact ENNReal.ofReal_le_ofReal (h2 i)
    · refine (measure_mono (t := {u | shot u = i} ×ˢ {u | shot u = j} ∪ {u | shot u = j} ×ˢ {u | shot u = i}) ?_).trans ?_
      · rintro ⟨u, v⟩ huv
        rcases hij u v huv with ⟨a, b⟩ | ⟨a, b⟩
        · exact .inl ⟨a, b⟩
        · exact .inr ⟨a, b⟩
      · refine (measure_union_le _ _).trans ?_
        rw [Measure.prod_prod, Measure.prod_prod, shot_probability hm hp, shot_probability hm hp, ← ENNReal.ofReal_mul (h0 i),
          ← ENNReal.ofReal_mul (h0 j), ← ENNReal.ofReal_add (mul_nonneg (h0 i) (h0 j)) (mul_nonneg (h0 j) (h0 i))]
        refine ENNReal.ofReal_le_ofReal (le_trans (le_of_eq ?_) (h1 i j he))
        ring
  refine (lintegral_mono hb).trans ?_
  rw [lintegral_const, measure_univ, mul_one]

/-- The same number is drawn every time. -/
theorem same_draws (hm : Measurable shot) (hp : ∀ a : Fin k → ℝ, ∫ u, a (shot u) ∂uniformUnit = ∑ i, p i * a i) (h0 : ∀ i, 0 ≤ p i)
    (N : ℕ) (i : Fin k) : uniformTape {ω | ∀ j < N, shot (ω j) = i} = ENNReal.ofReal (p i ^ N) := by
  have e : {ω : ℕ → Set.Ico (0 : ℝ) 1 | ∀ j < N, shot (ω j) = i} = Set.pi (Finset.range N) fun _ => {u | shot u = i} := by
    ext ω
    simp [Set.mem_pi]
  have hs : MeasurableSet {u | shot u = i} := hm (measurableSet_singleton i)
  rw [e, uniformTape, Measure.infinitePi_pi (μ := fun _ => uniformUnit) (fun _ _ => hs), Finset.prod_const, Finset.card_range,
    shot_probability hm hp, ENNReal.ofReal_pow (h0 i)]

end draws

/-! ## The gates -/

/-- The components of the gates along `X` and `Y`, for both eigenvalues. -/
def axis : Fin 3 → Fin 4 → ℤ := ![![1, 0, 1, 0], ![0, 1, 0, 1], ![0, 1, 0, -1]]

theorem axis_apart : ∀ i j k l : Fin 3, ¬ ((i = k ∧ j = l) ∨ (i = l ∧ j = k)) →
    4 ≤ (axis i 0 + axis j 0 - (axis k 0 + axis l 0)) ^ 2 + (axis i 1 + axis j 1 - (axis k 1 + axis l 1)) ^ 2 +
      (axis i 2 + axis j 2 - (axis k 2 + axis l 2)) ^ 2 + (axis i 3 + axis j 3 - (axis k 3 + axis l 3)) ^ 2 := by
  decide

theorem axis_unit : ∀ i j : Fin 3, axis i 0 * axis j 0 + axis i 1 * axis j 1 ≤ 1 ∧ axis i 2 * axis j 2 + axis i 3 * axis j 3 ≤ 1 ∧
    axis i 0 ^ 2 + axis i 1 ^ 2 = 1 ∧ axis i 2 ^ 2 + axis i 3 ^ 2 = 1 := by
  decide

/-- A gate. -/
noncomputable def gate4 (c s : ℝ) (i : Fin 3) : Matrix (Fin 4) (Fin 4) ℂ :=
  sectors (quat c (s * axis i 0) (s * axis i 1) 0, quat c (s * axis i 2) (s * axis i 3) 0)

theorem quat_sum {p x y z p' x' y' z' : ℝ} (h : p ^ 2 + x ^ 2 + y ^ 2 + z ^ 2 = 1) (h' : p' ^ 2 + x' ^ 2 + y' ^ 2 + z' ^ 2 = 1) :
    (x - x') ^ 2 + (y - y') ^ 2 ≤ 2 - 2 * (p * p' + x * x' + y * y' + z * z') ∧
    (p + p') ^ 2 ≤ 2 + 2 * (p * p' + x * x' + y * y' + z * z') := by
  constructor <;> nlinarith [sq_nonneg (p - p'), sq_nonneg (z - z'), sq_nonneg (x + x'), sq_nonneg (y + y'), sq_nonneg (z + z')]

/-- The product of two gates, for one eigenvalue. -/
theorem gate_mul {c s : ℝ} (hc : c ^ 2 + s ^ 2 = 1) {a b a' b' : ℤ} (h : a ^ 2 + b ^ 2 = 1) (h' : a' ^ 2 + b' ^ 2 = 1)
    (hu : a * a' + b * b' ≤ 1) : ∃ p z : ℝ,
      quat c (s * a) (s * b) 0 * quat c (s * a') (s * b') 0 = quat p (c * s * (a + a')) (c * s * (b + b')) z ∧
      p ^ 2 + (c * s * (a + a')) ^ 2 + (c * s * (b + b')) ^ 2 + z ^ 2 = 1 ∧ c ^ 2 - s ^ 2 ≤ p := by
  have hr : (a : ℝ) ^ 2 + (b : ℝ) ^ 2 = 1 := by exact_mod_cast h
  have hr' : (a' : ℝ) ^ 2 + (b' : ℝ) ^ 2 = 1 := by exact_mod_cast h'
  have hur : (a : ℝ) * a' + b * b' ≤ 1 := by exact_mod_cast hu
  refine ⟨c ^ 2 - s ^ 2 * (a * a' + b * b'), -(s ^ 2 * (a * b' - b * a')), ?_, ?_, ?_⟩
  · rw [quat.mul]
    congr 1 <;> ring
  · have e1 : ((a : ℝ) * a' + b * b') ^ 2 + (a * b' - b * a') ^ 2 = 1 := by
      calc _ = ((a : ℝ) ^ 2 + b ^ 2) * (a' ^ 2 + b' ^ 2) := by ring
        _ = 1 := by rw [hr, hr', one_mul]
    have e2 : ((a : ℝ) + a') ^ 2 + (b + b') ^ 2 = 2 + 2 * (a * a' + b * b') := by linear_combination hr + hr'
    calc _ = c ^ 4 - 2 * c ^ 2 * s ^ 2 * (a * a' + b * b') + s ^ 4 * (((a : ℝ) * a' + b * b') ^ 2 + (a * b' - b * a') ^ 2) +
          c ^ 2 * s ^ 2 * (((a : ℝ) + a') ^ 2 + (b + b') ^ 2) := by ring
      _ = (c ^ 2 + s ^ 2) ^ 2 := by rw [e1, e2]; ring
      _ = 1 := by rw [hc, one_pow]
  · nlinarith [mul_le_mul_of_nonneg_left hur (sq_nonneg s)]

/-- Products of different pairs of gates are apart. -/
theorem gate_pairs {c s : ℝ} (hc : c ^ 2 + s ^ 2 = 1) (hs : s ^ 2 ≤ 0.1) {i j k l : Fin 3} (h : ¬ ((i = k ∧ j = l) ∨ (i = l ∧ j = k))) :
    c ^ 2 * s ^ 2 ≤ 1 - overlap (gate4 c s i * gate4 c s j) (gate4 c s k * gate4 c s l) := by
  obtain ⟨u1, u2, u3, u4⟩ := axis_unit i j
  obtain ⟨-, -, u5, u6⟩ := axis_unit j i
  obtain ⟨v1, v2, v3, v4⟩ := axis_unit k l
  obtain ⟨-, -, v5, v6⟩ := axis_unit l k
  obtain ⟨p1, z1, e1, f1, g1⟩ := gate_mul hc u3 u5 u1
  obtain ⟨p2, z2, e2, f2, g2⟩ := gate_mul hc u4 u6 u2
  obtain ⟨p3, z3, e3, f3, g3⟩ := gate_mul hc v3 v5 v1
  obtain ⟨p4, z4, e4, f4, g4⟩ := gate_mul hc v4 v6 v2
  unfold gate4
  rw [sectors.mul, sectors.mul, e1, e2, e3, e4, sectors.overlap_eq]
  obtain ⟨a1, a2⟩ := quat_sum f1 f3
  obtain ⟨b1, b2⟩ := quat_sum f2 f4
  have hax : (4 : ℝ) ≤ ((axis i 0 : ℝ) + axis j 0 - (axis k 0 + axis l 0)) ^ 2 + ((axis i 1 : ℝ) + axis j 1 - (axis k 1 + axis l 1)) ^ 2 +
      ((axis i 2 : ℝ) + axis j 2 - (axis k 2 + axis l 2)) ^ 2 + ((axis i 3 : ℝ) + axis j 3 - (axis k 3 + axis l 3)) ^ 2 := by
    exact_mod_cast axis_apart i j k l h
  have hm := mul_le_mul_of_nonneg_left hax (mul_nonneg (sq_nonneg c) (sq_nonneg s))
  have q1 : 1.6 ^ 2 ≤ (p1 + p3) ^ 2 := pow_le_pow_left₀ (by norm_num) (by linarith) 2
  have q2 : 1.6 ^ 2 ≤ (p2 + p4) ^ 2 := pow_le_pow_left₀ (by norm_num) (by linarith) 2
  rw [abs_of_nonneg (by linarith)]
  have e : c ^ 2 * s ^ 2 * (((axis i 0 : ℝ) + axis j 0 - (axis k 0 + axis l 0)) ^ 2 + ((axis i 1 : ℝ) + axis j 1 - (axis k 1 + axis l 1)) ^ 2 +
      ((axis i 2 : ℝ) + axis j 2 - (axis k 2 + axis l 2)) ^ 2 + ((axis i 3 : ℝ) + axis j 3 - (axis k 3 + axis l 3)) ^ 2) =
      (c * s * (axis i 0 + axis j 0) - c * s * (axis k 0 + axis l 0)) ^ 2 + (c * s * (axis i 1 + axis j 1) - c * s * (axis k 1 + axis l 1)) ^ 2 +
      ((c * s * (axis i 2 + axis j 2) - c * s * (axis k 2 + axis l 2)) ^ 2 + (c * s * (axis i 3 + axis j 3) - c * s * (axis k 3 + axis l 3)) ^ 2) := by
    ring
  linarith

/-! ## The sequence -/

theorem normalised_smul {A : Matrix (Fin 4) (Fin 4) ℂ} {a : ℝ} (ha : a ≠ 0) (h : maxAbsEigenvalue ((a : ℂ) • A) = a) :
    normalised ((a : ℂ) • A) = ((1 : ℝ) : ℂ) • A := by
  unfold normalised
  rw [h, smul_smul, ← Complex.ofReal_mul, one_div, inv_mul_cancel₀ ha]

theorem drift_gates {ts : ℝ} (i : Fin xyyTerms.length) : evolution (normalised xyyTerms[i]) ts = gate4 (Real.cos ts) (Real.sin ts) i := by
  obtain ⟨-, -, a, -, -, b, -, -, c⟩ := xyy_scaled
  have key : ∀ j : Fin 3, evolution (normalised (xyyTerms[(j : ℕ)]'j.2)) ts = gate4 (Real.cos ts) (Real.sin ts) j := by
    intro j
    fin_cases j
    · refine (congrArg (evolution · ts) (normalised_smul (by norm_num) a)).trans ((evolution_xx 1 ts).trans ?_)
      simp [gate4, axis]
    · refine (congrArg (evolution · ts) (normalised_smul (by norm_num) b)).trans ((evolution_y1 1 ts).trans ?_)
      simp [gate4, axis]
    · refine (congrArg (evolution · ts) (normalised_smul (by norm_num) c)).trans ((evolution_y2 1 ts).trans ?_)
      simp [gate4, axis]
  exact key i

theorem drift_weights (i : Fin xyyTerms.length) : maxAbsEigenvalue xyyTerms[i] = (![2, 1.5, 1.1] : Fin 3 → ℝ) i := by
  obtain ⟨-, -, a, -, -, b, -, -, c⟩ := xyy_scaled
  have key : ∀ j : Fin 3, maxAbsEigenvalue (xyyTerms[(j : ℕ)]'j.2) = (![2, 1.5, 1.1] : Fin 3 → ℝ) j := by
    intro j
    fin_cases j
    · exact a
    · exact b
    · exact c
  exact key i

theorem scaled_square {S : Matrix (Fin 4) (Fin 4) ℂ} (hS : S * S = 1) {a : ℝ} (ha : a ≠ 0) (h : maxAbsEigenvalue ((a : ℂ) • S) = a) :
    (1 / maxAbsEigenvalue ((a : ℂ) • S)) • ((a : ℂ) • S) ^ 2 = (a : ℂ) • sectors (1, 1) := by
  have e : sectors (1, 1) = 1 := map_one sectors
  have e2 : ∀ M : Matrix (Fin 4) (Fin 4) ℂ, (1 / a : ℝ) • M = ((1 / a : ℝ) : ℂ) • M := fun M => by
    ext i j
    simp [Matrix.smul_apply]
  rw [h, e, pow_two, smul_mul_smul_comm, hS, e2, smul_smul]
  congr 1
  have : (a : ℂ) ≠ 0 := by exact_mod_cast ha
  push_cast
  field_simp

theorem xy_square (a b : ℝ) : ((a : ℂ) • Gate.X + (b : ℂ) • Gate.Y) * ((a : ℂ) • Gate.X + (b : ℂ) • Gate.Y) =
    ((a ^ 2 + b ^ 2 : ℝ) : ℂ) • (1 : Matrix (Fin 2) (Fin 2) ℂ) := by
  ext i j
  fin_cases i <;> fin_cases j <;> simp [Gate.X, Gate.Y, Matrix.mul_apply, Fin.sum_univ_two] <;> ring_nf <;> simp

theorem xyy_variance : ‖qdriftVariance xyyTerms‖ ≤ 17 := by
  obtain ⟨-, -, a, -, -, b, -, -, c⟩ := xyy_scaled
  have hX : sectors (Gate.X, Gate.X) * sectors (Gate.X, Gate.X) = 1 := by
    rw [sectors.mul, X_mul_X]; exact map_one sectors
  have hY : Gate.Y * Gate.Y = 1 := by
    ext i j; fin_cases i <;> fin_cases j <;> simp [Gate.Y, Matrix.mul_apply, Fin.sum_univ_two]
  have hY1 : sectors (Gate.Y, Gate.Y) * sectors (Gate.Y, Gate.Y) = 1 := by
    rw [sectors.mul, hY]; exact map_one sectors
  have hY2 : sectors (Gate.Y, -Gate.Y) * sectors (Gate.Y, -Gate.Y) = 1 := by
    rw [sectors.mul, neg_mul_neg, hY]; exact map_one sectors
  have s1 := scaled_square hX (by norm_num) a
  have s2 := scaled_square hY1 (by norm_num) b
  have s3 := scaled_square hY2 (by norm_num) c
  have hsum : (xyyTerms.map fun M => (1 / maxAbsEigenvalue M) • M ^ 2).sum = ((4.6 : ℝ) : ℂ) • sectors (1, 1) := by
    unfold xyyTerms
    rw [List.map_cons, List.map_cons, List.map_cons, List.map_nil, List.sum_cons, List.sum_cons, List.sum_cons, List.sum_nil, add_zero]
    refine (congrArg₂ _ s1 (congrArg₂ _ s2 s3)).trans ?_
    change ((2 : ℝ) : ℂ) • sectors (1, 1) + (((1.5 : ℝ) : ℂ) • sectors (1, 1) + ((1.1 : ℝ) : ℂ) • sectors (1, 1)) = _
    rw [← add_smul, ← add_smul, ← Complex.ofReal_add, ← Complex.ofReal_add]
    norm_num
  have e : qdriftVariance xyyTerms = sectors (((10.4 : ℝ) : ℂ) • 1, ((17 : ℝ) : ℂ) • 1) := by
    unfold qdriftVariance
    rw [hsum, xyy_strength, xyy_sum]
    have e1 : (4.6 : ℝ) • (((4.6 : ℝ) : ℂ) • sectors (1, 1)) = sectors (((21.16 : ℝ) : ℂ) • 1, ((21.16 : ℝ) : ℂ) • 1) := by
      refine Eq.trans ?_ (map_smul sectors ((21.16 : ℝ) : ℂ) (1, 1)).symm
      ext i j
      simp [Matrix.smul_apply]
      ring
    have e2 : sectors (((2 : ℝ) : ℂ) • Gate.X + ((2.6 : ℝ) : ℂ) • Gate.Y, ((2 : ℝ) : ℂ) • Gate.X + ((0.4 : ℝ) : ℂ) • Gate.Y) ^ 2 =
        sectors (((2 ^ 2 + 2.6 ^ 2 : ℝ) : ℂ) • 1, ((2 ^ 2 + 0.4 ^ 2 : ℝ) : ℂ) • 1) := by
      rw [pow_two, sectors.mul, xy_square, xy_square]
    refine (congrArg₂ _ e1 e2).trans ((sectors_sub _ _ _ _).trans ?_)
    rw [← sub_smul, ← sub_smul, ← Complex.ofReal_sub, ← Complex.ofReal_sub]
    norm_num
  rw [e]
  refine sectors.norm_le ?_ ?_ <;> rw [norm_smul, Complex.norm_real, norm_one] <;> norm_num

theorem normalised_herm {M : Matrix (Fin (2 ^ 2)) (Fin (2 ^ 2)) ℂ} (h : M.IsHermitian) : (normalised M).IsHermitian := by
  unfold normalised
  refine Matrix.IsHermitian.ext fun a b => ?_
  rw [Matrix.smul_apply, Matrix.smul_apply, smul_eq_mul, smul_eq_mul, star_mul', h.apply]
  congr 1
  exact Complex.conj_ofReal _

/-- What is used about the QDRIFT sequence: its product is a measurable function of the random numbers, in the mean near to the
time evolution, and seldom very near to a given matrix; but it can be far from the time evolution. -/
theorem drift4 {H : Hamiltonian} (hH : H.Of xyyTerms) : ∃ Q : (ℕ → Set.Ico (0 : ℝ) 1) → Matrix (Fin (2 ^ 2)) (Fin (2 ^ 2)) ℂ,
    (∀ ω, Q ω ∈ unitaryGroup (Fin (2 ^ 2)) ℂ) ∧
    (∀ W ∈ unitaryGroup (Fin (2 ^ 2)) ℂ, Measurable fun ω => overlap W (Q ω)) ∧
    (∀ {c : Client} {Cs : List Compiler}, Session 0 c Cs → (∀ x ∈ c.world.entries, x.toVal.Exact) → ∀ ω,
      ∃ P, QdriftProduct H 1.234 1000 c.world ω P ∧ SamePhase P (Q fun j => ω (c.world.rng.upos + j))) ∧
    uniformTape {ω | 0.05 ≤ 1 - overlap (evolution xyyTerms.sum 1.234) (Q ω)} ≤ ENNReal.ofReal 0.263 ∧
    (∀ W ∈ unitaryGroup (Fin (2 ^ 2)) ℂ, uniformTape {ω | 1 - overlap W (Q ω) ≤ 1 / 100000000} ≤ ENNReal.ofReal 0.284) ∧
    ENNReal.ofReal ((1.5 / 4.6) ^ 1000) ≤ uniformTape {ω | ¬ 1 - overlap (evolution xyyTerms.sum 1.234) (Q ω) ≤ 0.05} := by
  obtain ⟨L, hL⟩ : ∃ L, L = |(1.234 : ℝ)| * (xyyTerms.map maxAbsEigenvalue).sum := ⟨_, rfl⟩
  obtain ⟨p, shot, x, hpe, hxe, hm, hmean, hp0, hp1, hxct, hxu, hr, hVe, hvar, hcode⟩ := qdrift_choices (by norm_num) hH 1.234
    (N := 1000) (by norm_num) hL
  rw [xyy_strength] at hL hpe hxe
  have hL' : L = 5.6764 := by rw [hL, abs_of_pos (by norm_num)]; norm_num
  obtain ⟨g1, g2⟩ := hH.total
  have hT : evolution xyyTerms.sum 1.234 ∈ unitaryGroup (Fin (2 ^ 2)) ℂ := evolution_unitary g2 _
  have hQm : ∀ W ∈ unitaryGroup (Fin (2 ^ 2)) ℂ, Measurable fun ω : ℕ → Set.Ico (0 : ℝ) 1 =>
      overlap W (drawnProduct (fun i => NormedSpace.exp (x i)) 1000 fun j => shot (ω j)) := fun W hW =>
    (mean_overlap_ge (by positivity) hxu hm hmean 1000 hW).1
  refine ⟨fun ω => drawnProduct (fun i => NormedSpace.exp (x i)) 1000 fun j => shot (ω j), fun ω => drawnProduct_mem hxu _ _, hQm, ?_, ?_, ?_, ?_⟩
  · intro c Cs hs hex ω
    obtain ⟨P, h1, h2⟩ := hcode hs hex ω
    refine ⟨P, h1, ?_⟩
    dsimp only
    rwa [drawnProduct_eq]
  · obtain ⟨k1, k2, k3⟩ := mean_overlap_ge (by positivity) hxu hm hmean 1000 hT
    have hV : evolution xyyTerms.sum (1.234 / ((1000 : ℕ) : ℝ)) ∈ unitaryGroup (Fin (2 ^ 2)) ℂ := evolution_unitary g2 _
    have hpow : ‖(∑ i, p i • NormedSpace.exp (x i)) ^ 1000 - evolution xyyTerms.sum 1.234‖ ≤
        1000 * ‖∑ i, p i • NormedSpace.exp (x i) - evolution xyyTerms.sum (1.234 / ((1000 : ℕ) : ℝ))‖ := by
      have h2 := norm_pow_sub_pow_le (norm_mean_le hxu hp0 hp1) (norm_unitary_le hV) 1000
      rw [evolution_pow, mul_div_cancel₀ _ (by norm_num)] at h2
      exact_mod_cast h2
    have h1 := norm_mean_exp_sub_var_le (x := x) hp0 hp1 hr
    rw [hVe, hvar, norm_smul, norm_neg, Real.norm_of_nonneg (by positivity)] at h1
    have hexp : Real.exp (L / ((1000 : ℕ) : ℝ)) ≤ 3 := by
      refine (Real.exp_le_exp.mpr (show _ ≤ (1 : ℝ) by rw [hL']; norm_num)).trans ?_
      exact Real.exp_one_lt_d9.le.trans (by norm_num)
    have h3 : (L / ((1000 : ℕ) : ℝ)) ^ 3 / 3 * Real.exp (L / ((1000 : ℕ) : ℝ)) ≤ (L / ((1000 : ℕ) : ℝ)) ^ 3 / 3 * 3 :=
      mul_le_mul_of_nonneg_left hexp (by rw [hL']; positivity)
    have h4 : (1.234 / ((1000 : ℕ) : ℝ)) ^ 2 * ‖qdriftVariance xyyTerms‖ ≤ (1.234 / ((1000 : ℕ) : ℝ)) ^ 2 * 17 :=
      mul_le_mul_of_nonneg_left xyy_variance (by positivity)
    have h5 : ‖(∑ i, p i • NormedSpace.exp (x i)) ^ 1000 - evolution xyyTerms.sum 1.234‖ ≤ 0.01315 := by
      rw [hL'] at h3 h1
      norm_num at h1 h3 h4 hpow ⊢
      linarith
    set D : (ℕ → Set.Ico (0 : ℝ) 1) → ℝ := fun ω => 1 - overlap (evolution xyyTerms.sum 1.234)
      (drawnProduct (fun i => NormedSpace.exp (x i)) 1000 fun j => shot (ω j)) with hD
    have hD0 : ∀ ω, 0 ≤ D ω := fun ω => by
      have := overlap_le_one hT (drawnProduct_mem hxu 1000 fun j => shot (ω j))
      simp only [hD]; linarith
    have hDi : Integrable D uniformTape := (integrable_const 1).sub k2
    have hDint : ∫ ω, D ω ∂uniformTape ≤ 0.01315 := by
      rw [hD, integral_sub (integrable_const 1) k2]
      simp only [integral_const, probReal_univ, smul_eq_mul, mul_one]
      linarith
    have h := mul_meas_ge_le_integral_of_nonneg (Filter.Eventually.of_forall hD0) hDi 0.05
    refine (ENNReal.le_ofReal_iff_toReal_le (measure_ne_top _ _) (by norm_num)).mpr ?_
    change 0.05 * (uniformTape {ω | 0.05 ≤ D ω}).toReal ≤ _ at h
    change (uniformTape {ω | 0.05 ≤ D ω}).toReal ≤ _
    linarith
  · intro W hW
    have hts : (4.6 * 1.234 / ((1000 : ℕ) : ℝ) : ℝ) = 0.0056764 := by norm_num
    rw [hts] at hxe
    obtain ⟨c, hc⟩ : ∃ c, c = Real.cos 0.0056764 := ⟨_, rfl⟩
    obtain ⟨s, hs⟩ : ∃ s, s = Real.sin 0.0056764 := ⟨_, rfl⟩
    have hcs : c ^ 2 + s ^ 2 = 1 := by rw [hc, hs]; exact Real.cos_sq_add_sin_sq _
    have hsb := sin_numbers (x := 0.0056764) (l := 0.0056) (u := 0.0057) (by norm_num) (by norm_num) (by norm_num) (by norm_num)
    rw [← hs] at hsb
    have hsb2 := between (by norm_num) hsb (by norm_num) hsb
    have hg : ∀ i, NormedSpace.exp (x i) = gate4 c s i := fun i => by rw [hxe, drift_gates, ← hc, ← hs]
    have hpw : ∀ i, p i = (![2, 1.5, 1.1] : Fin 3 → ℝ) i / 4.6 := fun i => by rw [hpe, drift_weights]
    have hp1' : ∀ i j : Fin 3, i ≠ j → 2 * ((![2, 1.5, 1.1] : Fin 3 → ℝ) i / 4.6 * ((![2, 1.5, 1.1] : Fin 3 → ℝ) j / 4.6)) ≤ 0.284 := by
      intro i j hij
      fin_cases i <;> fin_cases j <;> simp at hij ⊢ <;> norm_num
    have hp2' : ∀ i : Fin 3, (![2, 1.5, 1.1] : Fin 3 → ℝ) i / 4.6 * ((![2, 1.5, 1.1] : Fin 3 → ℝ) i / 4.6) ≤ 0.284 := by
      intro i
      fin_cases i <;> simp <;> norm_num
    refine two_draws hm hmean hp0 (fun i j hij => by rw [hpw, hpw]; exact hp1' i j hij) (fun i => by rw [hpw]; exact hp2' i)
      (measurableSet_le (measurable_const.sub (hQm W hW)) measurable_const) fun ω => ?_
    by_cases hex : ∃ u v, twice u v ω ∈ {ω | 1 - overlap W (drawnProduct (fun i => NormedSpace.exp (x i)) 1000 fun j => shot (ω j)) ≤ 1 / 100000000}
    · obtain ⟨u, v, huv⟩ := hex
      refine ⟨shot u, shot v, fun u' v' huv' => ?_⟩
      by_contra hne
      have h4 := overlap_triangle (by positivity) (drawnProduct_mem hxu 1000 fun j => shot (twice u' v' ω j))
        (drawnProduct_mem hxu 1000 fun j => shot (twice u v ω j)) hW (δ := 1 / 100000000)
        (by rw [overlap_comm]; exact huv') (by rw [overlap_comm]; exact huv)
      have e : ∀ a b, drawnProduct (fun i => NormedSpace.exp (x i)) 1000 (fun j => shot (twice a b ω j)) =
          drawnProduct (fun i => NormedSpace.exp (x i)) 998 (fun j => shot (ω j)) * (NormedSpace.exp (x (shot b)) * NormedSpace.exp (x (shot a))) := by
        intro a b
        rw [show (1000 : ℕ) = 998 + 1 + 1 from rfl, drawnProduct, drawnProduct, Matrix.mul_assoc]
        congr 2
        funext j
        unfold twice
        rw [if_neg (by omega), if_neg (by omega), show 1 + (1 + j) - 2 = j by omega]
      rw [e, e, overlap_mul_left (drawnProduct_mem hxu 998 _), hg, hg, hg, hg] at h4
      have h5 := gate_pairs hcs (by rw [pow_two]; exact hsb2.2.trans (by norm_num)) (i := shot v') (j := shot u') (k := shot v) (l := shot u) (by
        rintro (⟨h1, h2⟩ | ⟨h1, h2⟩)
        · exact hne (.inl ⟨h2, h1⟩)
        · exact hne (.inr ⟨h2, h1⟩))
      have h6 : 0.9 * (0.0056 * 0.0056) ≤ c ^ 2 * s ^ 2 := by
        rw [pow_two s]
        refine mul_le_mul ?_ hsb2.1 (by norm_num) (sq_nonneg _)
        nlinarith [hsb2.2]
      have h7 := h6.trans (h5.trans h4)
      norm_num at h7
    · push Not at hex
      exact ⟨shot (ω 0), shot (ω 0), fun u v h => absurd h (hex u v)⟩
  · have hpw : ∀ i, p i = (![2, 1.5, 1.1] : Fin 3 → ℝ) i / 4.6 := fun i => by rw [hpe, drift_weights]
    have hall : ∀ (i : Fin xyyTerms.length) (ω : ℕ → Set.Ico (0 : ℝ) 1), (∀ j < 1000, shot (ω j) = i) →
        drawnProduct (fun i => NormedSpace.exp (x i)) 1000 (fun j => shot (ω j)) = gate4 (Real.cos 5.6764) (Real.sin 5.6764) i := by
      intro i ω hω
      have e : (List.range 1000).map (fun j => NormedSpace.exp (x (shot (ω j)))) = List.replicate 1000 (NormedSpace.exp (x i)) := by
        rw [List.eq_replicate_iff]
        refine ⟨by rw [List.length_map, List.length_range], fun A hA => ?_⟩
        obtain ⟨j, hj, rfl⟩ := List.mem_map.mp hA
        rw [hω j (List.mem_range.mp hj)]
      rw [drawnProduct_eq, e, List.reverse_replicate, List.prod_replicate, hxe, evolution_pow, drift_gates]
      norm_num
    have hbad : ∃ i : Fin xyyTerms.length, (1.5 / 4.6 : ℝ) ≤ p i ∧
        ¬ 1 - overlap (evolution xyyTerms.sum 1.234) (gate4 (Real.cos 5.6764) (Real.sin 5.6764) i) ≤ 0.05 := by
      by_contra hno
      push Not at hno
      have n0 := hno (0 : Fin 3) (le_trans (by norm_num) (hpw (0 : Fin 3)).ge)
      have n1 := hno (1 : Fin 3) (le_trans (by norm_num) (hpw (1 : Fin 3)).ge)
      have hu : ∀ i : Fin xyyTerms.length, gate4 (Real.cos 5.6764) (Real.sin 5.6764) i ∈ unitaryGroup (Fin 4) ℂ := fun i => by
        rw [← drift_gates]
        exact evolution_unitary (normalised_herm (xyy_herm _ (List.getElem_mem i.2))) _
      have h4 := overlap_triangle (by norm_num) (hu (0 : Fin 3)) (hu (1 : Fin 3)) hT (δ := 0.05) (by rw [overlap_comm]; exact n0)
        (by rw [overlap_comm]; exact n1)
      have h5 : overlap (gate4 (Real.cos 5.6764) (Real.sin 5.6764) 0) (gate4 (Real.cos 5.6764) (Real.sin 5.6764) 1) = Real.cos 5.6764 ^ 2 := by
        unfold gate4
        rw [sectors.overlap_eq, ← abs_of_nonneg (sq_nonneg (Real.cos 5.6764))]
        simp [axis]
        rw [← two_mul, abs_mul, abs_two, mul_div_cancel_left₀ _ (by norm_num), abs_of_nonneg (mul_self_nonneg _)]
        ring
      have h6 : 1 - Real.cos 5.6764 ^ 2 ≤ 4 * 0.05 := h5 ▸ h4
      have h7 := Real.cos_sq_add_sin_sq 5.6764
      have h8 : Real.sin 5.6764 = -Real.sin (2 * Real.pi - 5.6764) := by rw [Real.sin_two_pi_sub, neg_neg]
      have hpi := Real.pi_gt_d4
      have hpi' := Real.pi_lt_d4
      have h9 : 0.5 < Real.sin (2 * Real.pi - 5.6764) := by
        have := Real.sin_gt_sub_cube (x := 2 * Real.pi - 5.6764) (by linarith)
        have h10 : (2 * Real.pi - 5.6764) ^ 3 ≤ 0.607 ^ 3 := pow_le_pow_left₀ (by linarith) (by linarith) 3
        norm_num at h10
        linarith
      rw [h8] at h7
      nlinarith
    obtain ⟨i, hi, hb⟩ := hbad
    refine le_trans ?_ (measure_mono (s := {ω | ∀ j < 1000, shot (ω j) = i}) fun ω hω => ?_)
    · rw [same_draws hm hmean hp0]
      exact ENNReal.ofReal_le_ofReal (pow_le_pow_left₀ (by norm_num) hi _)
    · change ¬ 1 - overlap _ (drawnProduct (fun i => NormedSpace.exp (x i)) 1000 fun j => shot (ω j)) ≤ 0.05
      rw [hall i ω hω]
      exact hb

end Tests

end Stoq
