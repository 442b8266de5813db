import Verif.Proofs.RepoTwoQubits

/-! # The test of a Hamiltonian of two qubits: the Trotter steps -/

namespace Stoq

open Matrix Tests MeasureTheory

open scoped Matrix.Norms.L2Operator

namespace Tests

theorem perm_three {o : List ℕ} (h : o.Perm [0, 1, 2]) :
    o ∈ [[0, 1, 2], [1, 0, 2], [2, 1, 0], [1, 2, 0], [2, 0, 1], [0, 2, 1]] := by
  obtain ⟨a, b, c, rfl⟩ := List.length_eq_three.mp h.length_eq
  have ha := h.mem_iff.mp (show a ∈ [a, b, c] by simp)
  have hb := h.mem_iff.mp (show b ∈ [a, b, c] by simp)
  have hc := h.mem_iff.mp (show c ∈ [a, b, c] by simp)
  have hn := h.nodup_iff.mpr (by decide)
  simp only [List.mem_cons, List.not_mem_nil, or_false] at ha hb hc
  rcases ha with rfl | rfl | rfl <;> rcases hb with rfl | rfl | rfl <;> rcases hc with rfl | rfl | rfl <;> simp at hn ⊢

/-! ## The time evolutions of the terms -/

theorem evolution_smul_sectors (a : ℝ) (A B : Matrix (Fin 2) (Fin 2) ℂ) (t : ℝ) :
    evolution ((a : ℂ) • sectors (A, B)) t = sectors (evolution ((a : ℂ) • A) t, evolution ((a : ℂ) • B) t) := by
  rw [← map_smul, ← sectors.evolution]
  rfl

theorem evolution_xx (a t : ℝ) : evolution ((a : ℂ) • sectors (Gate.X, Gate.X)) t =
    sectors (quat (Real.cos (a * t)) (Real.sin (a * t)) 0 0, quat (Real.cos (a * t)) (Real.sin (a * t)) 0 0) := by
  rw [evolution_smul_sectors, quat.evolution_x]

theorem evolution_y1 (a t : ℝ) : evolution ((a : ℂ) • sectors (Gate.Y, Gate.Y)) t =
    sectors (quat (Real.cos (a * t)) 0 (Real.sin (a * t)) 0, quat (Real.cos (a * t)) 0 (Real.sin (a * t)) 0) := by
  rw [evolution_smul_sectors, quat.evolution_y]

theorem evolution_y2 (a t : ℝ) : evolution ((a : ℂ) • sectors (Gate.Y, -Gate.Y)) t =
    sectors (quat (Real.cos (a * t)) 0 (Real.sin (a * t)) 0, quat (Real.cos (a * t)) 0 (-Real.sin (a * t)) 0) := by
  have h : (a : ℂ) • -Gate.Y = ((-a : ℝ) : ℂ) • Gate.Y := by push_cast; simp
  rw [evolution_smul_sectors, h, quat.evolution_y, quat.evolution_y, neg_mul, Real.cos_neg, Real.sin_neg]

/-- The whole Hamiltonian. -/
theorem xyy_sum : xyyTerms.sum = sectors (((2 : ℝ) : ℂ) • Gate.X + ((2.6 : ℝ) : ℂ) • Gate.Y, ((2 : ℝ) : ℂ) • Gate.X + ((0.4 : ℝ) : ℂ) • Gate.Y) := by
  unfold xyyTerms
  rw [List.sum_cons, List.sum_cons, List.sum_cons, List.sum_nil, add_zero, ← map_smul, ← map_smul, ← map_smul]
  refine ((congrArg (_ + ·) (map_add sectors _ _).symm).trans (map_add sectors _ _).symm).trans ?_
  congr 1
  ext1
  · change ((2 : ℝ) : ℂ) • Gate.X + (((1.5 : ℝ) : ℂ) • Gate.Y + ((1.1 : ℝ) : ℂ) • Gate.Y) = ((2 : ℝ) : ℂ) • Gate.X + ((2.6 : ℝ) : ℂ) • Gate.Y
    rw [← add_smul]
    congr 2
    push_cast; norm_num
  · change ((2 : ℝ) : ℂ) • Gate.X + (((1.5 : ℝ) : ℂ) • Gate.Y + ((1.1 : ℝ) : ℂ) • -Gate.Y) = ((2 : ℝ) : ℂ) • Gate.X + ((0.4 : ℝ) : ℂ) • Gate.Y
    rw [smul_neg, ← neg_smul, ← add_smul]
    congr 2
    push_cast; norm_num

/-! ## The orders of a step -/

/-- A step with the given order. -/
noncomputable def step4 (o : List ℕ) : Matrix (Fin (2 ^ 2)) (Fin (2 ^ 2)) ℂ := trotterMatrix xyyTerms (1.234 / 20) o

theorem xyy_herm : ∀ M ∈ xyyTerms, M.IsHermitian := by
  obtain ⟨a1, -, -, b1, -, -, c1, -, -⟩ := xyy_scaled
  intro M hM
  simp only [xyyTerms, List.mem_cons, List.not_mem_nil, or_false] at hM
  rcases hM with rfl | rfl | rfl
  · exact a1
  · exact b1
  · exact c1

theorem step4_unitary (o : List ℕ) : step4 o ∈ unitaryGroup (Fin (2 ^ 2)) ℂ := trotterMatrix_unitary' xyy_herm _ o

/-- The term `X⊗X` comes first (`ε = 1`) or last (`ε = -1`). -/
noncomputable def edge (ca sa cp sp cm sm ε : ℝ) : Matrix (Fin 4) (Fin 4) ℂ :=
  sectors (quat (ca * cp) (sa * cp) (ca * sp) (ε * (sa * sp)), quat (ca * cm) (sa * cm) (ca * sm) (ε * (sa * sm)))

/-- The term `X⊗X` comes second. -/
noncomputable def middle (ca sa cp sp cm sm ε : ℝ) : Matrix (Fin 4) (Fin 4) ℂ :=
  sectors (quat (ca * cp) (sa * cm) (ca * sp) (ε * (sa * sm)), quat (ca * cm) (sa * cp) (ca * sm) (ε * (sa * sp)))

theorem step4_eq {ca sa cp sp cm sm : ℝ} (h1 : Real.cos 0.1234 = ca) (h2 : Real.sin 0.1234 = sa) (h3 : Real.cos 0.16042 = cp)
    (h4 : Real.sin 0.16042 = sp) (h5 : Real.cos 0.02468 = cm) (h6 : Real.sin 0.02468 = sm) :
    step4 [0, 1, 2] = edge ca sa cp sp cm sm 1 ∧ step4 [0, 2, 1] = edge ca sa cp sp cm sm 1 ∧
    step4 [2, 1, 0] = edge ca sa cp sp cm sm (-1) ∧ step4 [1, 2, 0] = edge ca sa cp sp cm sm (-1) ∧
    step4 [1, 0, 2] = middle ca sa cp sp cm sm (-1) ∧ step4 [2, 0, 1] = middle ca sa cp sp cm sm 1 := by
  obtain ⟨c1, k1⟩ : ∃ c, c = Real.cos 0.09255 := ⟨_, rfl⟩
  obtain ⟨s1, k2⟩ : ∃ c, c = Real.sin 0.09255 := ⟨_, rfl⟩
  obtain ⟨c2, k3⟩ : ∃ c, c = Real.cos 0.06787 := ⟨_, rfl⟩
  obtain ⟨s2, k4⟩ : ∃ c, c = Real.sin 0.06787 := ⟨_, rfl⟩
  rw [show (0.16042 : ℝ) = 0.09255 + 0.06787 by norm_num, Real.cos_add, ← k1, ← k2, ← k3, ← k4] at h3
  rw [show (0.16042 : ℝ) = 0.09255 + 0.06787 by norm_num, Real.sin_add, ← k1, ← k2, ← k3, ← k4] at h4
  rw [show (0.02468 : ℝ) = 0.09255 - 0.06787 by norm_num, Real.cos_sub, ← k1, ← k2, ← k3, ← k4] at h5
  rw [show (0.02468 : ℝ) = 0.09255 - 0.06787 by norm_num, Real.sin_sub, ← k1, ← k2, ← k3, ← k4] at h6
  have e0 := evolution_xx 2 (1.234 / 20)
  have e1 := evolution_y1 1.5 (1.234 / 20)
  have e2 := evolution_y2 1.1 (1.234 / 20)
  rw [show (2 : ℝ) * (1.234 / 20) = 0.1234 by norm_num, h1, h2] at e0
  rw [show (1.5 : ℝ) * (1.234 / 20) = 0.09255 by norm_num, ← k1, ← k2] at e1
  rw [show (1.1 : ℝ) * (1.234 / 20) = 0.06787 by norm_num, ← k3, ← k4] at e2
  have key : ∀ i j k : ℕ, step4 [i, j, k] = evolution (xyyTerms.getD k 0) (1.234 / 20) *
      (evolution (xyyTerms.getD j 0) (1.234 / 20) * evolution (xyyTerms.getD i 0) (1.234 / 20)) := fun i j k => by
    simp [step4, trotterMatrix]
  have g0 : evolution (xyyTerms.getD 0 0) (1.234 / 20) = _ := e0
  have g1 : evolution (xyyTerms.getD 1 0) (1.234 / 20) = _ := e1
  have g2 : evolution (xyyTerms.getD 2 0) (1.234 / 20) = _ := e2
  have hm : ∀ p x y z p' x' y' z' p'' x'' y'' z'' q u v w q' u' v' w' q'' u'' v'' w'' : ℝ,
      sectors (quat p x y z, quat q u v w) * (sectors (quat p' x' y' z', quat q' u' v' w') * sectors (quat p'' x'' y'' z'', quat q'' u'' v'' w'')) =
      sectors (quat p x y z * (quat p' x' y' z' * quat p'' x'' y'' z''), quat q u v w * (quat q' u' v' w' * quat q'' u'' v'' w'')) := by
    intros
    rw [sectors.mul, sectors.mul]
  subst h3 h4 h5 h6
  refine ⟨?_, ?_, ?_, ?_, ?_, ?_⟩ <;>
  · rw [key, g0, g1, g2]
    refine (hm _ _ _ _ _ _ _ _ _ _ _ _ _ _ _ _ _ _ _ _ _ _ _ _).trans ?_
    simp only [quat.mul]
    first | unfold edge | unfold middle
    congr 2 <;> congr 1 <;> ring

/-! ## The numbers -/

theorem cos_numbers {x l u : ℝ} (h0 : 0 ≤ x) (h1 : x ≤ 1) (hl : l ≤ 1 - x ^ 2 / 2 - x ^ 4 * (5 / 96))
    (hu : 1 - x ^ 2 / 2 + x ^ 4 * (5 / 96) ≤ u) : l ≤ Real.cos x ∧ Real.cos x ≤ u := by
  have := abs_le.mp (Real.cos_bound (x := x) (by rwa [abs_of_nonneg h0]))
  rw [abs_of_nonneg h0] at this
  constructor <;> linarith

theorem sin_numbers {x l u : ℝ} (h0 : 0 ≤ x) (h1 : x ≤ 1) (hl : l ≤ x - x ^ 3 / 6 - x ^ 4 * (5 / 96))
    (hu : x - x ^ 3 / 6 + x ^ 4 * (5 / 96) ≤ u) : l ≤ Real.sin x ∧ Real.sin x ≤ u := by
  have := abs_le.mp (Real.sin_bound (x := x) (by rwa [abs_of_nonneg h0]))
  rw [abs_of_nonneg h0] at this
  have h5 : x ^ 5 ≤ x ^ 4 := pow_le_pow_of_le_one h0 h1 (by norm_num)
  have h6 : x ^ 4 * 0 ≤ x ^ 4 := by have := pow_nonneg h0 4; linarith
  constructor <;> nlinarith

/-- The numbers that occur, with bounds. -/
theorem numbers4 : ∃ ca sa cp sp cm sm : ℝ, (Real.cos 0.1234 = ca ∧ Real.sin 0.1234 = sa ∧ Real.cos 0.16042 = cp ∧
    Real.sin 0.16042 = sp ∧ Real.cos 0.02468 = cm ∧ Real.sin 0.02468 = sm) ∧
    (ca ^ 2 + sa ^ 2 = 1 ∧ cp ^ 2 + sp ^ 2 = 1 ∧ cm ^ 2 + sm ^ 2 = 1) ∧
    (0.992374 ≤ ca ∧ ca ≤ 0.992399) ∧ (0.123074 ≤ sa ∧ sa ≤ 0.1231) ∧ (0.987098 ≤ cp ∧ cp ≤ 0.987168) ∧
    (0.159697 ≤ sp ∧ sp ≤ 0.159767) ∧ (0.999695 ≤ cm ∧ cm ≤ 0.999696) ∧ (0.024677 ≤ sm ∧ sm ≤ 0.024678) := by
  refine ⟨_, _, _, _, _, _, ⟨rfl, rfl, rfl, rfl, rfl, rfl⟩, ⟨Real.cos_sq_add_sin_sq _, Real.cos_sq_add_sin_sq _, Real.cos_sq_add_sin_sq _⟩,
    cos_numbers ?_ ?_ ?_ ?_, sin_numbers ?_ ?_ ?_ ?_, cos_numbers ?_ ?_ ?_ ?_, sin_numbers ?_ ?_ ?_ ?_, cos_numbers ?_ ?_ ?_ ?_,
    sin_numbers ?_ ?_ ?_ ?_⟩ <;> norm_num

/-- The time evolution for one step, for one of the two eigenvalues. -/
theorem ideal_quat {a b : ℝ} (ha : 0 < a) (hb : 0 < b) {C : ℝ} (hC : C = a ^ 2 + b ^ 2) (hC1 : C ≤ 1) :
    ∃ e k : ℝ, (∀ A B t : ℝ, A * t = a → B * t = b → evolution ((A : ℂ) • Gate.X + (B : ℂ) • Gate.Y) t = quat e (a * k) (b * k) 0) ∧
    (1 - C / 2 - C ^ 2 * (5 / 96) ≤ e ∧ e ≤ 1 - C / 2 + C ^ 2 * (5 / 96)) ∧
    (1 - C / 6 - C ^ 2 * (5 / 96) ≤ k ∧ k ≤ 1 - C / 6 + C ^ 2 * (5 / 96)) ∧ e ^ 2 + (a * k) ^ 2 + (b * k) ^ 2 = 1 := by
  have hC0 : 0 < C := by rw [hC]; positivity
  obtain ⟨c, hc0, hc⟩ : ∃ c : ℝ, 0 < c ∧ c ^ 2 = C := ⟨√C, Real.sqrt_pos.mpr hC0, Real.sq_sqrt hC0.le⟩
  have hc1 : |c| ≤ 1 := by
    rw [abs_of_pos hc0]
    nlinarith
  have h1 := abs_le.mp (Real.cos_bound hc1)
  have h2 := abs_le.mp (Real.sin_bound hc1)
  have e4 : |c| ^ 4 = C ^ 2 := by rw [← hc, abs_of_pos hc0]; ring
  have e5 : |c| ^ 5 = C ^ 2 * c := by rw [← hc, abs_of_pos hc0]; ring
  have e3 : c ^ 3 = C * c := by rw [← hc]; ring
  rw [e4, hc] at h1
  rw [e5, e3] at h2
  refine ⟨Real.cos c, Real.sin c / c, ?_, by constructor <;> linarith, ?_, ?_⟩
  · intro A B t hA hB
    rw [quat.evolution_xy (c := c) hc0.ne' (by rw [hA, hB, hc, hC]), hA, hB]
  · rw [le_div_iff₀ hc0, div_le_iff₀ hc0]
    constructor <;> nlinarith [mul_pos (pow_pos hC0 2) hc0]
  · have := Real.cos_sq_add_sin_sq c
    have h3 : (a * (Real.sin c / c)) ^ 2 + (b * (Real.sin c / c)) ^ 2 = Real.sin c ^ 2 := by
      rw [mul_pow, mul_pow, ← add_mul, ← hC, ← hc, div_pow]
      field_simp
    rw [add_assoc, h3, this]

theorem ideal_xyy : ∃ e k e' k' : ℝ, evolution xyyTerms.sum (1.234 / 20) =
      sectors (quat e (0.1234 * k) (0.16042 * k) 0, quat e' (0.1234 * k') (0.02468 * k') 0) ∧
    (0.979431 ≤ e ∧ e ≤ 0.979607) ∧ (0.993085 ≤ k ∧ k ≤ 0.993261) ∧ (0.992068 ≤ e' ∧ e' ≤ 0.992095) ∧
    (0.997347 ≤ k' ∧ k' ≤ 0.997374) ∧ e ^ 2 + (0.1234 * k) ^ 2 + (0.16042 * k) ^ 2 = 1 ∧
    e' ^ 2 + (0.1234 * k') ^ 2 + (0.02468 * k') ^ 2 = 1 := by
  obtain ⟨e, k, h1, h2, h3, h4⟩ := ideal_quat (a := 0.1234) (b := 0.16042) (by norm_num) (by norm_num) rfl (by norm_num)
  obtain ⟨e', k', h1', h2', h3', h4'⟩ := ideal_quat (a := 0.1234) (b := 0.02468) (by norm_num) (by norm_num) rfl (by norm_num)
  refine ⟨e, k, e', k', ?_, ?_, ?_, ?_, ?_, h4, h4'⟩
  · rw [xyy_sum]
    refine (sectors.evolution _ _ _).trans ?_
    rw [h1 2 2.6 (1.234 / 20) (by norm_num) (by norm_num), h1' 2 0.4 (1.234 / 20) (by norm_num) (by norm_num)]
  · norm_num at h2 ⊢; constructor <;> linarith
  · norm_num at h3 ⊢; constructor <;> linarith
  · norm_num at h2' ⊢; constructor <;> linarith
  · norm_num at h3' ⊢; constructor <;> linarith

theorem sectors_sub (A B A' B' : Matrix (Fin 2) (Fin 2) ℂ) : sectors (A, B) - sectors (A', B') = sectors (A - A', B - B') :=
  (map_sub sectors (A, B) (A', B')).symm

/-- The mean of two matrices of this form. -/
theorem sectors_mean (A B A' B' : Matrix (Fin 2) (Fin 2) ℂ) : (1 / 2 : ℝ) • (sectors (A, B) + sectors (A', B')) =
    sectors ((1 / 2 : ℝ) • (A + A'), (1 / 2 : ℝ) • (B + B')) := by
  have h : ∀ {m : ℕ} (M : Matrix (Fin m) (Fin m) ℂ), (1 / 2 : ℝ) • M = (1 / 2 : ℂ) • M := fun M => by
    ext i j
    simp [Matrix.smul_apply]
  rw [h, h, h]
  exact ((congrArg _ (map_add sectors (A, B) (A', B')).symm).trans (map_smul sectors (1 / 2 : ℂ) _).symm)

theorem quat_mean (p x y z p' x' y' z' : ℝ) : (1 / 2 : ℝ) • (quat p x y z + quat p' x' y' z') =
    quat ((p + p') / 2) ((x + x') / 2) ((y + y') / 2) ((z + z') / 2) := by
  ext i j
  fin_cases i <;> fin_cases j <;> simp [quat, Matrix.smul_apply] <;> ring

theorem edge_mean (ca sa cp sp cm sm ε : ℝ) : (1 / 2 : ℝ) • (edge ca sa cp sp cm sm ε + edge ca sa cp sp cm sm (-ε)) =
    edge ca sa cp sp cm sm 0 := by
  unfold edge
  rw [sectors_mean, quat_mean, quat_mean]
  congr 3 <;> ring

theorem middle_mean (ca sa cp sp cm sm ε : ℝ) : (1 / 2 : ℝ) • (middle ca sa cp sp cm sm ε + middle ca sa cp sp cm sm (-ε)) =
    middle ca sa cp sp cm sm 0 := by
  unfold middle
  rw [sectors_mean, quat_mean, quat_mean]
  congr 3 <;> ring

theorem between {a b l u l' u' : ℝ} (h1 : 0 ≤ l) (h2 : l ≤ a ∧ a ≤ u) (h3 : 0 ≤ l') (h4 : l' ≤ b ∧ b ≤ u') :
    l * l' ≤ a * b ∧ a * b ≤ u * u' :=
  ⟨mul_le_mul h2.1 h4.1 h3 (h1.trans h2.1), mul_le_mul h2.2 h4.2 (h3.trans h4.1) (h1.trans (h2.1.trans h2.2))⟩

theorem gap {a b l u l' u' c k : ℝ} (h1 : l ≤ a ∧ a ≤ u) (h2 : l' ≤ b ∧ b ≤ u') (hk : 0 ≤ k) (h3 : u - k * l' ≤ c) (h4 : k * u' - l ≤ c) :
    (a - k * b) ^ 2 ≤ c ^ 2 := by
  have := mul_le_mul_of_nonneg_left h2.1 hk
  have := mul_le_mul_of_nonneg_left h2.2 hk
  exact sq_le_sq' (by linarith) (by linarith)

/-- The differences between the parts of the steps and of the time evolution. -/
theorem gaps4 {ca sa cp sp cm sm e k e' k' : ℝ} (ha : 0.992374 ≤ ca ∧ ca ≤ 0.992399) (hb : 0.123074 ≤ sa ∧ sa ≤ 0.1231)
    (hc : 0.987098 ≤ cp ∧ cp ≤ 0.987168) (hd : 0.159697 ≤ sp ∧ sp ≤ 0.159767) (he : 0.999695 ≤ cm ∧ cm ≤ 0.999696)
    (hf : 0.024677 ≤ sm ∧ sm ≤ 0.024678) (hi : 0.979431 ≤ e ∧ e ≤ 0.979607) (hj : 0.993085 ≤ k ∧ k ≤ 0.993261)
    (hl : 0.992068 ≤ e' ∧ e' ≤ 0.992095) (hm : 0.997347 ≤ k' ∧ k' ≤ 0.997374) :
    (ca * cp - 1 * e) ^ 2 ≤ 0.0003 ^ 2 ∧ (ca * cm - 1 * e') ^ 2 ≤ 0.0002 ^ 2 ∧ (ca * sp - 0.16042 * k) ^ 2 ≤ 0.0010 ^ 2 ∧
    (ca * sm - 0.02468 * k') ^ 2 ≤ 0.0002 ^ 2 ∧ (sa * cp - 0.1234 * k) ^ 2 ≤ 0.0012 ^ 2 ∧ (sa * cm - 0.1234 * k') ^ 2 ≤ 0.0002 ^ 2 ∧
    (sa * cm - 0.1234 * k) ^ 2 ≤ 0.0008 ^ 2 ∧ (sa * cp - 0.1234 * k') ^ 2 ≤ 0.0017 ^ 2 ∧
    (sa * sp) ^ 2 ≤ 0.01967 ^ 2 ∧ (sa * sm) ^ 2 ≤ 0.00304 ^ 2 := by
  refine ⟨gap (between ?_ ha ?_ hc) hi ?_ ?_ ?_, gap (between ?_ ha ?_ he) hl ?_ ?_ ?_, gap (between ?_ ha ?_ hd) hj ?_ ?_ ?_,
    gap (between ?_ ha ?_ hf) hm ?_ ?_ ?_, gap (between ?_ hb ?_ hc) hj ?_ ?_ ?_, gap (between ?_ hb ?_ he) hm ?_ ?_ ?_,
    gap (between ?_ hb ?_ he) hj ?_ ?_ ?_, gap (between ?_ hb ?_ hc) hm ?_ ?_ ?_,
    pow_le_pow_left₀ (mul_nonneg (le_trans ?_ hb.1) (le_trans ?_ hd.1)) ((between ?_ hb ?_ hd).2.trans ?_) 2,
    pow_le_pow_left₀ (mul_nonneg (le_trans ?_ hb.1) (le_trans ?_ hf.1)) ((between ?_ hb ?_ hf).2.trans ?_) 2⟩ <;> norm_num

theorem sectors_near {A B A' B' : Matrix (Fin 2) (Fin 2) ℂ} {c : ℝ} (h : ‖A - A'‖ ≤ c) (h' : ‖B - B'‖ ≤ c) :
    ‖sectors (A, B) - sectors (A', B')‖ ≤ c := by
  rw [sectors_sub]
  exact sectors.norm_le h h'

theorem quat_near {p x y z p' x' y' a b d : ℝ} (hz : z = 0) (h1 : (p - p') ^ 2 ≤ a ^ 2) (h2 : (x - x') ^ 2 ≤ b ^ 2)
    (h3 : (y - y') ^ 2 ≤ d ^ 2) (h : a ^ 2 + b ^ 2 + d ^ 2 ≤ 0.0019 ^ 2) : ‖quat p x y z - quat p' x' y' 0‖ ≤ 0.0019 := by
  rw [quat.sub, hz]
  refine quat.norm_le (by norm_num) ?_
  linarith

/-- A step and the step with the opposite order approximate the time evolution in the mean. -/
theorem step4_mean {o : List ℕ} (ho : o.Perm [0, 1, 2]) :
    ‖(1 / 2 : ℝ) • (step4 o + step4 o.reverse) - evolution xyyTerms.sum (1.234 / 20)‖ ≤ 0.0019 := by
  obtain ⟨ca, sa, cp, sp, cm, sm, ⟨h1, h2, h3, h4, h5, h6⟩, -, ha, hb, hc, hd, he, hf⟩ := numbers4
  obtain ⟨s1, s2, s3, s4, s5, s6⟩ := step4_eq h1 h2 h3 h4 h5 h6
  obtain ⟨e, k, e', k', hi, hie, hj, hl, hm, -, -⟩ := ideal_xyy
  obtain ⟨p1, p2, p3, p4, p5, p6, p7, p8, q1, q2⟩ := gaps4 ha hb hc hd he hf hie hj hl hm
  rw [one_mul] at p1 p2
  rw [hi]
  have A := sectors_near (quat_near (z := 0 * (sa * sp)) (by norm_num) p1 p5 p3 (by norm_num))
    (quat_near (z := 0 * (sa * sm)) (by norm_num) p2 p6 p4 (by norm_num))
  have M := sectors_near (quat_near (z := 0 * (sa * sm)) (by norm_num) p1 p7 p3 (by norm_num))
    (quat_near (z := 0 * (sa * sp)) (by norm_num) p2 p8 p4 (by norm_num))
  have E : ∀ {P Q : Matrix (Fin 4) (Fin 4) ℂ} {ε : ℝ}, P = edge ca sa cp sp cm sm ε → Q = edge ca sa cp sp cm sm (-ε) →
      ‖(1 / 2 : ℝ) • (P + Q) - sectors (quat e (0.1234 * k) (0.16042 * k) 0, quat e' (0.1234 * k') (0.02468 * k') 0)‖ ≤ 0.0019 :=
    fun h h' => by
      rw [h, h', edge_mean]
      exact A
  have F : ∀ {P Q : Matrix (Fin 4) (Fin 4) ℂ} {ε : ℝ}, P = middle ca sa cp sp cm sm ε → Q = middle ca sa cp sp cm sm (-ε) →
      ‖(1 / 2 : ℝ) • (P + Q) - sectors (quat e (0.1234 * k) (0.16042 * k) 0, quat e' (0.1234 * k') (0.02468 * k') 0)‖ ≤ 0.0019 :=
    fun h h' => by
      rw [h, h', middle_mean]
      exact M
  have n : (1 : ℝ) = - -1 := (neg_neg 1).symm
  have := perm_three ho
  simp only [List.mem_cons, List.not_mem_nil, or_false] at this
  rcases this with rfl | rfl | rfl | rfl | rfl | rfl
  · exact E (P := step4 [0, 1, 2]) (Q := step4 [2, 1, 0]) s1 s3
  · exact F (P := step4 [1, 0, 2]) (Q := step4 [2, 0, 1]) s5 (n ▸ s6)
  · exact E (P := step4 [2, 1, 0]) (Q := step4 [0, 1, 2]) s3 (n ▸ s1)
  · exact E (P := step4 [1, 2, 0]) (Q := step4 [0, 2, 1]) s4 (n ▸ s2)
  · exact F (P := step4 [2, 0, 1]) (Q := step4 [1, 0, 2]) s6 s5
  · exact E (P := step4 [0, 2, 1]) (Q := step4 [1, 2, 0]) s2 s4

/-- The two classes of steps, by the term that comes second. -/
theorem step4_class {ca sa cp sp cm sm : ℝ} (h1 : Real.cos 0.1234 = ca) (h2 : Real.sin 0.1234 = sa) (h3 : Real.cos 0.16042 = cp)
    (h4 : Real.sin 0.16042 = sp) (h5 : Real.cos 0.02468 = cm) (h6 : Real.sin 0.02468 = sm) {o : List ℕ} (ho : o.Perm [0, 1, 2]) :
    ∃ ε : ℝ, ε ^ 2 = 1 ∧ (step4 o = edge ca sa cp sp cm sm ε ∨ step4 o = middle ca sa cp sp cm sm ε) := by
  obtain ⟨s1, s2, s3, s4, s5, s6⟩ := step4_eq h1 h2 h3 h4 h5 h6
  have := perm_three ho
  simp only [List.mem_cons, List.not_mem_nil, or_false] at this
  rcases this with rfl | rfl | rfl | rfl | rfl | rfl
  · exact ⟨1, by norm_num, .inl s1⟩
  · exact ⟨-1, by norm_num, .inr s5⟩
  · exact ⟨-1, by norm_num, .inl s3⟩
  · exact ⟨-1, by norm_num, .inl s4⟩
  · exact ⟨1, by norm_num, .inr s6⟩
  · exact ⟨1, by norm_num, .inl s2⟩

/-- The distance of one step. -/
theorem step4_distance {o : List ℕ} (ho : o.Perm [0, 1, 2]) :
    1 - ((evolution xyyTerms.sum (1.234 / 20))ᴴ * step4 o).trace.re / 4 ≤ 0.000102 := by
  obtain ⟨ca, sa, cp, sp, cm, sm, ⟨h1, h2, h3, h4, h5, h6⟩, ⟨g1, g2, g3⟩, ha, hb, hc, hd, he, hf⟩ := numbers4
  obtain ⟨e, k, e', k', hi, hie, hj, hl, hm, n1, n2⟩ := ideal_xyy
  obtain ⟨p1, p2, p3, p4, p5, p6, p7, p8, q1, q2⟩ := gaps4 ha hb hc hd he hf hie hj hl hm
  rw [one_mul] at p1 p2
  have u1 : ∀ {x y : ℝ}, x ^ 2 + y ^ 2 = 1 → (ca * x) ^ 2 + (sa * x) ^ 2 + (ca * y) ^ 2 + (sa * y) ^ 2 = 1 := fun {x y} h => by
    calc _ = (ca ^ 2 + sa ^ 2) * (x ^ 2 + y ^ 2) := by ring
      _ = 1 := by rw [g1, h, one_mul]
  have v1 := u1 g2
  have v2 := u1 g3
  have v3 : (ca * cp) ^ 2 + (sa * cm) ^ 2 + (ca * sp) ^ 2 + (sa * sm) ^ 2 = 1 := by
    calc _ = ca ^ 2 * (cp ^ 2 + sp ^ 2) + sa ^ 2 * (cm ^ 2 + sm ^ 2) := by ring
      _ = 1 := by rw [g2, g3, mul_one, mul_one, g1]
  have v4 : (ca * cm) ^ 2 + (sa * cp) ^ 2 + (ca * sm) ^ 2 + (sa * sp) ^ 2 = 1 := by
    calc _ = ca ^ 2 * (cm ^ 2 + sm ^ 2) + sa ^ 2 * (cp ^ 2 + sp ^ 2) := by ring
      _ = 1 := by rw [g2, g3, mul_one, mul_one, g1]
  obtain ⟨ε, hε, h | h⟩ := step4_class h1 h2 h3 h4 h5 h6 ho <;> rw [h, hi]
  · unfold edge
    rw [sectors.re_overlap]
    norm_num at p1 p2 p3 p4 p5 p6 p7 p8 q1 q2 n1 n2 ⊢
    linarith
  · unfold middle
    rw [sectors.re_overlap]
    norm_num at p1 p2 p3 p4 p5 p6 p7 p8 q1 q2 n1 n2 ⊢
    linarith

end Tests

end Stoq
