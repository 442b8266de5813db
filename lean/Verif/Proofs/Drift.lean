import Verif.Proofs.DriftNorm
import Verif.Proofs.Embed
import Verif.Proofs.Overlap
import Verif.Spec.Drift

/-! # The clean-up of small values and the operations of `Unitary` -/

namespace Stoq

open Matrix

open scoped Matrix.Norms.L2Operator

variable {d : ℕ} {t : ℝ} {τ : Arith}

theorem cleanR_sub (ht : 0 ≤ t) (x : ℝ) : |Arr.cleanR t x - x| ≤ t := by
  unfold Arr.cleanR
  split
  · rename_i h; rw [zero_sub, abs_neg]; exact h.le
  · simpa using ht

theorem clean_sub_norm (ht : 0 ≤ t) (a : Arr) : ‖(a.clean t).toMatrix d - a.toMatrix d‖ ≤ d * (√2 * t) := by
  refine norm_le_entries _ fun i j => ?_
  refine (Complex.norm_le_sqrt_two_mul_max _).trans ?_
  refine mul_le_mul_of_nonneg_left (max_le ?_ ?_) (Real.sqrt_nonneg 2)
  · exact cleanR_sub ht _
  · exact cleanR_sub ht _

theorem smul_mem_unitary {V : Matrix (Fin d) (Fin d) ℂ} {c : ℂ} (hc : ‖c‖ = 1) (hV : V ∈ unitaryGroup (Fin d) ℂ) :
    c • V ∈ unitaryGroup (Fin d) ℂ := by
  rw [mem_unitaryGroup_iff, star_eq_conjTranspose] at *
  rw [conjTranspose_smul, smul_mul_smul_comm, hV]
  have : c * star c = 1 := by
    rw [Complex.star_def, Complex.mul_conj, Complex.normSq_eq_norm_sq, hc]; norm_num
  rw [this, one_smul]

theorem ct_mem_unitary {V : Matrix (Fin d) (Fin d) ℂ} (hV : V ∈ unitaryGroup (Fin d) ℂ) : Vᴴ ∈ unitaryGroup (Fin d) ℂ := by
  rw [← star_eq_conjTranspose]; exact _root_.Unitary.star_mem hV

section NearMat

variable {X Y V W : Matrix (Fin d) (Fin d) ℂ} {ε ε' : ℝ}

theorem CloseTo.mono (h : CloseTo X V ε) (hle : ε ≤ ε') : CloseTo X V ε' := by
  obtain ⟨c, hc, h⟩ := h
  exact ⟨c, hc, h.trans hle⟩

theorem CloseTo.nonneg (h : CloseTo X V ε) : 0 ≤ ε := by
  obtain ⟨c, -, h⟩ := h
  exact (norm_nonneg _).trans h

theorem CloseTo.trans_norm (h : CloseTo X V ε) (hY : ‖Y - X‖ ≤ ε') : CloseTo Y V (ε + ε') := by
  obtain ⟨c, hc, h⟩ := h
  refine ⟨c, hc, ?_⟩
  calc ‖Y - c • V‖ = ‖(X - c • V) + (Y - X)‖ := by congr 1; abel
    _ ≤ _ := (norm_add_le _ _).trans (add_le_add h hY)

theorem CloseTo.norm_le (hd : 0 < d) (hV : V ∈ unitaryGroup (Fin d) ℂ) (h : CloseTo X V ε) : ‖X‖ ≤ 1 + ε := by
  obtain ⟨c, hc, h⟩ := h
  have h1 := norm_unitary hd (smul_mem_unitary hc hV)
  calc ‖X‖ = ‖c • V + (X - c • V)‖ := by congr 1; abel
    _ ≤ _ := (norm_add_le _ _).trans (add_le_add h1.le h)

theorem CloseTo.le_norm (hd : 0 < d) (hV : V ∈ unitaryGroup (Fin d) ℂ) (h : CloseTo X V ε) : 1 - ε ≤ ‖X‖ := by
  obtain ⟨c, hc, h⟩ := h
  have h1 := norm_unitary hd (smul_mem_unitary hc hV)
  have h2 : ‖c • V‖ ≤ ‖X‖ + ‖X - c • V‖ := by
    calc ‖c • V‖ = ‖X - (X - c • V)‖ := by congr 1; abel
      _ ≤ _ := norm_sub_le _ _
  linarith

theorem CloseTo.ct (h : CloseTo X V ε) : CloseTo Xᴴ Vᴴ ε := by
  obtain ⟨c, hc, h⟩ := h
  refine ⟨star c, by rw [norm_star, hc], ?_⟩
  rw [← conjTranspose_smul, ← conjTranspose_sub, l2_opNorm_conjTranspose]; exact h

/-- Norm distance of products. -/
theorem mul_near (hd : 0 < d) {A B : Matrix (Fin d) (Fin d) ℂ} {c c' : ℂ} (hc : ‖c‖ = 1) (hc' : ‖c'‖ = 1)
    (hV : V ∈ unitaryGroup (Fin d) ℂ) (hW : W ∈ unitaryGroup (Fin d) ℂ) (hA : ‖A - c • V‖ ≤ ε) (hB : ‖B - c' • W‖ ≤ ε') :
    ‖A * B - (c * c') • (V * W)‖ ≤ (1 + ε) * (1 + ε') - 1 := by
  have hε : 0 ≤ ε := (norm_nonneg _).trans hA
  have e : A * B - (c * c') • (V * W) = (A - c • V) * (c' • W) + (c • V) * (B - c' • W) + (A - c • V) * (B - c' • W) := by
    rw [← smul_mul_smul_comm]; noncomm_ring
  have h1 := norm_unitary hd (smul_mem_unitary hc hV)
  have h2 := norm_unitary hd (smul_mem_unitary hc' hW)
  rw [e]
  calc _ ≤ ‖(A - c • V) * (c' • W)‖ + ‖(c • V) * (B - c' • W)‖ + ‖(A - c • V) * (B - c' • W)‖ :=
        (norm_add_le _ _).trans (add_le_add (norm_add_le _ _) le_rfl)
    _ ≤ ε * 1 + 1 * ε' + ε * ε' := by
      refine add_le_add (add_le_add ?_ ?_) ?_
      · exact (norm_mul_le _ _).trans (mul_le_mul hA h2.le (norm_nonneg _) hε)
      · exact (norm_mul_le _ _).trans (mul_le_mul h1.le hB (norm_nonneg _) zero_le_one)
      · exact (norm_mul_le _ _).trans (mul_le_mul hA hB (norm_nonneg _) hε)
    _ = _ := by ring

theorem CloseTo.mul (hd : 0 < d) (hV : V ∈ unitaryGroup (Fin d) ℂ) (hW : W ∈ unitaryGroup (Fin d) ℂ)
    (h : CloseTo X V ε) (k : CloseTo Y W ε') : CloseTo (X * Y) (V * W) ((1 + ε) * (1 + ε') - 1) := by
  obtain ⟨c, hc, h⟩ := h
  obtain ⟨c', hc', k⟩ := k
  exact ⟨c * c', by rw [norm_mul, hc, hc', one_mul], mul_near hd hc hc' hV hW h k⟩

theorem NearMat.close (h : NearMat X V ε) : CloseTo X V ε := h.1

theorem NearMat.mono (h : NearMat X V ε) (hle : ε ≤ ε') : NearMat X V ε' := by
  obtain ⟨h, r, X', h1, h2, h3⟩ := h
  exact ⟨h.mono hle, r, X', h1, h2, h3.mono hle⟩

theorem NearMat.nonneg (h : NearMat X V ε) : 0 ≤ ε := h.1.nonneg

theorem CloseTo.near (h : CloseTo X V ε) (hdet : ‖X.det‖ = 1) : NearMat X V ε :=
  ⟨h, 1, X, (one_smul _ _).symm, hdet, h⟩

theorem NearMat.ct (h : NearMat X V ε) : NearMat Xᴴ Vᴴ ε := by
  obtain ⟨h, r, X', h1, h2, h3⟩ := h
  exact ⟨h.ct, star r, X'ᴴ, by rw [h1, conjTranspose_smul], by rw [det_conjTranspose, norm_star, h2], h3.ct⟩

theorem NearMat.mul (hd : 0 < d) (hV : V ∈ unitaryGroup (Fin d) ℂ) (hW : W ∈ unitaryGroup (Fin d) ℂ)
    (h : NearMat X V ε) (k : NearMat Y W ε') : NearMat (X * Y) (V * W) ((1 + ε) * (1 + ε') - 1) := by
  obtain ⟨h, r, X', h1, h2, h3⟩ := h
  obtain ⟨k, s, Y', k1, k2, k3⟩ := k
  exact ⟨h.mul hd hV hW k, r * s, X' * Y', by rw [h1, k1, smul_mul_smul_comm], by rw [det_mul, norm_mul, h2, k2, one_mul],
    h3.mul hd hV hW k3⟩

end NearMat

/-- A perturbed matrix, scaled to determinant one. -/
theorem CloseTo.rescale (hd : 0 < d) {X V δ : Matrix (Fin d) (Fin d) ℂ} (hV : V ∈ unitaryGroup (Fin d) ℂ) {ε η : ℝ}
    (hX : CloseTo X V ε) (hdet : ‖X.det‖ = 1) (hδ : ‖δ‖ ≤ η) (hsum : ε + η ≤ 1 / 100)
    {z : ℂ} (hz : z ^ d = 1 / (X + δ).det) : (X + δ).det ≠ 0 ∧ CloseTo (z • (X + δ)) V (ε + 2.1 * η) := by
  obtain ⟨c, hc, h⟩ := hX
  have hcV := smul_mem_unitary hc hV
  have hε := (norm_nonneg _).trans h
  have hη := (norm_nonneg _).trans hδ
  have hlo := (det_perturb hd hcV h hdet hδ hε hη hsum).1
  obtain ⟨c', hc', hn⟩ := rescale_near hd hcV h hdet hδ hε hη hsum hz
  refine ⟨fun h0 => ?_, c' * c, by rw [norm_mul, hc', hc, one_mul], by rwa [smul_smul] at hn⟩
  rw [h0, norm_zero] at hlo
  have : 0 < (1 - 1.011 * η) ^ d := pow_pos (by linarith) d
  linarith

namespace Arith

variable {D : ℕ} {e : ℝ}

theorem Rounds.mono (h : τ.Rounds D e) {d : ℕ} (hd : d ≤ D) : τ.Rounds d e where
  mul m hm := h.mul m (hm.trans hd)
  kron m m' hm := h.kron m m' (hm.trans hd)
  balance m hm := h.balance m (hm.trans hd)
  distance m hm := h.distance m (hm.trans hd)
  entries m hm := h.entries m (hm.trans hd)
  evolution m hm := h.evolution m (hm.trans hd)
  one_mul m hm := h.one_mul m (hm.trans hd)
  one_balance m hm := h.one_balance m (hm.trans hd)

theorem Accurate.mono (h : τ.Accurate D t) {d : ℕ} (hd : d ≤ D) : τ.Accurate d t := by
  obtain ⟨h0, e, he, ht, hr⟩ := h
  exact ⟨h0, e, he, ht, hr.mono hd⟩

theorem Accurate.t_nonneg (h : τ.Accurate D t) : 0 ≤ t := by
  obtain ⟨h0, e, he, ht, hr⟩ := h
  linarith

theorem Accurate.tau_le (h : τ.Accurate D t) : τ.tau ≤ t := by
  obtain ⟨h0, e, he, ht, hr⟩ := h
  linarith

/-- Exact arithmetic has no rounding errors. -/
theorem exact_rounds (t : ℝ) (D : ℕ) : (exact t).Rounds D 0 where
  mul := by intros; simp [exact]
  kron := by intros; simp [exact]
  balance d hd a ha hV := by
    rcases Nat.eq_zero_or_pos d with rfl | hd
    · refine ⟨0, ?_, by simp⟩
      rw [Arr.det_eq ha.rows]; simp
    exact ⟨_, Unitary.phase_pow hd _, fun i _ j _ => by simp [exact, Arr.smul]⟩
  distance := by intros; simp [exact]
  entries := by intros; simp [exact]
  evolution := by intros; simp [exact]
  one_mul d _ i hi j hj := by
    have h := congr_fun (congr_fun (Arr.toMatrix_matmul (a := Arr.identity d) (b := (Arr.identity d).ct) (d := d) rfl) ⟨i, hi⟩) ⟨j, hj⟩
    rw [Arr.toMatrix_ct, Arr.toMatrix_identity, conjTranspose_one, mul_one, ← Arr.toMatrix_identity] at h
    exact h
  one_balance d _ := by
    have hdet : (Arr.identity d).det = 1 := by
      rw [Arr.det_eq (d := d) rfl, Arr.toMatrix_identity, det_one]
    funext i j
    simp [exact, Arr.smul, hdet]

theorem exact_accurate (ht : 0 ≤ t) (D : ℕ) : (exact t).Accurate D t :=
  ⟨ht, 0, le_rfl, by simp [exact], exact_rounds t D⟩

end Arith

theorem CloseTo.small {a : Arr} (hd : 0 < d) (hr : a.rows = d) (hc : a.cols = d) {V : Matrix (Fin d) (Fin d) ℂ}
    (hV : V ∈ unitaryGroup (Fin d) ℂ) {ε : ℝ} (h : CloseTo (a.toMatrix d) V ε) (hε : ε ≤ 1 / 10) : a.Small d :=
  ⟨hr, hc, (h.norm_le hd hV).trans (by linarith)⟩

/-- The error of a computed matrix. -/
theorem norm_le_of_entries {a b : Arr} {e : ℝ} (h : ∀ i < d, ∀ j < d, ‖a.val i j - b.val i j‖ ≤ e) :
    ‖a.toMatrix d - b.toMatrix d‖ ≤ d * e :=
  norm_le_entries _ fun i j => h i i.2 j j.2

namespace Unitary

variable {u v : Unitary} {V W : Matrix (Fin d) (Fin d) ℂ} {ε ε' e : ℝ}

theorem Near.rows (h : u.Near V ε) : u.matrix.rows = d := h.1
theorem Near.cols (h : u.Near V ε) : u.matrix.cols = d := h.2.1
theorem Near.dim (h : u.Near V ε) : u.getDimension = d := h.1
theorem Near.mat (h : u.Near V ε) : NearMat (u.matrix.toMatrix d) V ε := h.2.2
theorem Near.close (h : u.Near V ε) : CloseTo (u.matrix.toMatrix d) V ε := h.2.2.1

theorem Near.mono (h : u.Near V ε) (hle : ε ≤ ε') : u.Near V ε' := ⟨h.1, h.2.1, h.2.2.mono hle⟩

theorem Near.nonneg (h : u.Near V ε) : 0 ≤ ε := h.2.2.nonneg

/-- The constructor on a matrix close to a unitary one, with the rounding error `e`. -/
theorem new_near' (hd : 0 < d) (ht : 0 ≤ τ.tau) (he : 0 ≤ e) (hτ : τ.Rounds d e) {a : Arr} (hr : a.rows = d)
    (hc : a.cols = d) (hV : V ∈ unitaryGroup (Fin d) ℂ) {X : Matrix (Fin d) (Fin d) ℂ} (hX : NearMat X V ε)
    (ha : ‖a.toMatrix d - X‖ ≤ d * e) (hlim : ε + 3 * d * (τ.tau + 2 * e) ≤ driftLimit)
    (n : Option String) (pd : Option ParamDict) (inv : Bool) (ap : List ℕ) :
    ∃ u, Unitary.new τ d (some a) n pd inv ap = .ok u ∧ u.Near V (ε + 3 * d * (τ.tau + 2 * e)) ∧
      CloseTo (u.matrix.toMatrix d) V (ε + 3 * d * (τ.tau + 4 / 3 * e)) ∧
      u.operationName = n.getD "U" ∧ u.parameterDict = pd.getD [] ∧ u.isInverse = inv ∧ u.applyTo = ap := by
  obtain ⟨hX, r, X', hrX, hdet, hX'⟩ := hX
  have hε0 : 0 ≤ ε := hX.nonneg
  have hd1 : (1 : ℝ) ≤ d := by exact_mod_cast hd
  set p : ℝ := d * τ.tau with hp
  set q : ℝ := d * e with hq
  have hp0 : 0 ≤ p := by positivity
  have hq0 : 0 ≤ q := by positivity
  have heq : e ≤ q := by rw [hq]; nlinarith
  have hlim' : ε + 3 * p + 6 * q ≤ 4.9e-9 := by
    have := hlim; unfold driftLimit at this; linarith
  have hs2 : √2 ≤ 1.42 := by
    rw [show (1.42 : ℝ) = √(1.42 ^ 2) by rw [Real.sqrt_sq (by norm_num)]]
    exact Real.sqrt_le_sqrt (by norm_num)
  set b := a.clean τ.tau with hb
  have hbr : b.rows = d := hr
  have hbc : b.cols = d := hc
  have hclean : ‖b.toMatrix d - a.toMatrix d‖ ≤ 1.42 * p := by
    refine (clean_sub_norm ht a).trans ?_
    rw [← mul_assoc, mul_comm (d : ℝ), mul_assoc]
    exact mul_le_mul_of_nonneg_right hs2 hp0
  have hbX : ‖b.toMatrix d - X‖ ≤ q + 1.42 * p := by
    calc _ = ‖(a.toMatrix d - X) + (b.toMatrix d - a.toMatrix d)‖ := by congr 1; abel
      _ ≤ _ := (norm_add_le _ _).trans (add_le_add ha hclean)
  have hclose : CloseTo (b.toMatrix d) V (ε + (q + 1.42 * p)) := hX.trans_norm hbX
  -- the factor `r` is nearly a phase
  have hXn := hX.le_norm hd hV
  have hXn' := hX'.norm_le hd hV
  have hr1 : 0.999 ≤ ‖r‖ := by
    rw [hrX, norm_smul] at hXn
    by_contra hlt
    push Not at hlt
    have : ‖r‖ * ‖X'‖ ≤ 0.999 * (1 + ε) := mul_le_mul hlt.le hXn' (norm_nonneg _) (by norm_num)
    linarith
  have hr0 : r ≠ 0 := by rintro rfl; rw [norm_zero] at hr1; linarith
  set δ := r⁻¹ • (b.toMatrix d - X) with hδ
  have hbδ : b.toMatrix d = r • (X' + δ) := by
    rw [hδ, smul_add, ← hrX, smul_smul, mul_inv_cancel₀ hr0, one_smul]; abel
  set η : ℝ := 1.002 * (q + 1.42 * p) with hη
  have hδn : ‖δ‖ ≤ η := by
    rw [hδ, norm_smul, norm_inv, hη]
    refine mul_le_mul ?_ hbX (norm_nonneg _) (by norm_num)
    rw [inv_le_comm₀ (by linarith) (by norm_num)]
    exact le_trans (by norm_num) hr1
  have hsum : ε + η ≤ 1 / 100 := by rw [hη]; linarith
  have hbdet : b.det = r ^ d * (X' + δ).det := by
    rw [Arr.det_eq (d := d) hbr, hbδ, det_smul, Fintype.card_fin]
  have hbsmall : b.Small d := hclose.small hd hbr hbc hV (by linarith)
  obtain ⟨c0, hc0, hclose0⟩ := hclose
  have hcV := smul_mem_unitary hc0 hV
  obtain ⟨z, hz, hzb⟩ := hτ.balance d le_rfl b hbsmall ⟨c0 • V, hcV, hclose0.trans (by linarith)⟩
  have hz' : (z * r) ^ d = 1 / (X' + δ).det := by
    rw [mul_pow, hz, hbdet, one_div, mul_inv, one_div]
    field_simp
  obtain ⟨hdet0, hzc⟩ := hX'.rescale hd hV hdet hδn hsum hz'
  rw [mul_smul, ← hbδ] at hzc
  have hne : b.det ≠ 0 := by rw [hbdet]; exact mul_ne_zero (pow_ne_zero _ hr0) hdet0
  have hclose' : allclose (τ.matmul b b.ct) (Arr.identity d) := by
    intro i hi j hj
    have hi' : i < d := by rw [← hr]; exact hi
    have hj' : j < d := by rw [← hr]; exact hj
    have h1 := near_mul_ct hd hcV hclose0
    have h2 := (entry_le_norm (b.toMatrix d * (b.toMatrix d)ᴴ - 1) ⟨i, hi'⟩ ⟨j, hj'⟩).trans h1
    have h3 : (b.matmul b.ct).toMatrix d = b.toMatrix d * (b.toMatrix d)ᴴ := by
      rw [Arr.toMatrix_matmul hbc, Arr.toMatrix_ct]
    rw [← h3, ← Arr.toMatrix_identity (n := d)] at h2
    have h4 := hτ.mul d le_rfl b b.ct hbsmall
      ⟨hbc, hbr, by rw [Arr.toMatrix_ct, l2_opNorm_conjTranspose]; exact hbsmall.norm⟩ i hi' j hj'
    unfold isclose
    have h5 : (0 : ℝ) ≤ 1e-5 * ‖(Arr.identity d).val i j‖ := by positivity
    set s := ε + (q + 1.42 * p) with hs
    have hs0 : 0 ≤ s := by positivity
    have hs1 : s ≤ 4.9e-9 - 5 * q := by rw [hs]; linarith
    have h6 : 2 * s + s ^ 2 + e ≤ 1e-8 := by nlinarith
    calc ‖(τ.matmul b b.ct).val i j - (Arr.identity d).val i j‖
        = ‖(τ.mul b b.ct i j - (b.matmul b.ct).val i j) + ((b.matmul b.ct).val i j - (Arr.identity d).val i j)‖ := by
          congr 1; show τ.mul b b.ct i j - _ = _; abel
      _ ≤ e + (2 * s + s ^ 2) := (norm_add_le _ _).trans (add_le_add h4 h2)
      _ ≤ _ := by linarith
  refine ⟨_, new_eq_ok.mpr ⟨hd, hr, hc, hclose', hne, rfl⟩, ?_⟩
  simp only [Option.getD_some]
  have hM : ‖(τ.balanced d b).toMatrix d - z • b.toMatrix d‖ ≤ q := by
    rw [← Arr.toMatrix_smul]
    exact norm_le_of_entries (b := b.smul z) hzb
  have hMc := hzc.trans_norm hM
  have hzdet : ‖(z • b.toMatrix d).det‖ = 1 := by
    rw [det_smul, Fintype.card_fin, ← Arr.det_eq (d := d) hbr, hz, one_div, inv_mul_cancel₀ hne, norm_one]
  set F := (τ.balanced d b).toMatrix d - z • b.toMatrix d with hF
  have hMF : z • b.toMatrix d + F = (τ.balanced d b).toMatrix d := by rw [hF]; abel
  obtain ⟨hMdet, hres⟩ := hzc.rescale hd hV hzdet hM (by rw [hη]; linarith)
    (z := (1 / (z • b.toMatrix d + F).det) ^ (1 / (d : ℂ))) (phase_pow hd _)
  rw [hMF] at hres hMdet
  set y := (1 / ((τ.balanced d b).toMatrix d).det) ^ (1 / (d : ℂ)) with hy
  have hyd : y ^ d = 1 / ((τ.balanced d b).toMatrix d).det := phase_pow hd _
  have hy0 : y ≠ 0 := by
    intro h0
    rw [h0, zero_pow hd.ne'] at hyd
    exact one_div_ne_zero hMdet hyd.symm
  have e1 : 3 * d * (τ.tau + 2 * e) = 3 * p + 6 * q := by rw [hp, hq]; ring
  have e2 : 3 * d * (τ.tau + 4 / 3 * e) = 3 * p + 4 * q := by rw [hp, hq]; ring
  rw [e1, e2]
  have hMc' : CloseTo ((τ.balanced d b).toMatrix d) V (ε + (3 * p + 4 * q)) := hMc.mono (by rw [hη]; linarith)
  refine ⟨⟨hbr, hbc, hMc'.mono (by linarith), y⁻¹, y • (τ.balanced d b).toMatrix d, ?_, ?_, ?_⟩, hMc', trivial, trivial, trivial, trivial⟩
  · rw [smul_smul, inv_mul_cancel₀ hy0, one_smul]
  · rw [det_smul, Fintype.card_fin, hyd, one_div, inv_mul_cancel₀ hMdet, norm_one]
  · exact hres.mono (by rw [hη]; linarith)

/-- The constructor on a matrix close to a unitary one. -/
theorem new_near (hd : 0 < d) (hτ : τ.Accurate d t) {a : Arr} (hr : a.rows = d) (hc : a.cols = d)
    (hV : V ∈ unitaryGroup (Fin d) ℂ) (hX : NearMat (a.toMatrix d) V ε) (hlim : ε + 3 * d * t ≤ driftLimit)
    (n : Option String) (pd : Option ParamDict) (inv : Bool) (ap : List ℕ) :
    ∃ u, Unitary.new τ d (some a) n pd inv ap = .ok u ∧ u.Near V (ε + 3 * d * t) ∧
      u.operationName = n.getD "U" ∧ u.parameterDict = pd.getD [] ∧ u.isInverse = inv ∧ u.applyTo = ap := by
  obtain ⟨h0, e, he, ht, hτ⟩ := hτ
  have hd0 : (0 : ℝ) ≤ 3 * d := by positivity
  have hle : ε + 3 * d * (τ.tau + 2 * e) ≤ ε + 3 * d * t := add_le_add le_rfl (mul_le_mul_of_nonneg_left ht hd0)
  obtain ⟨u, h1, h2, -, h3⟩ := new_near' hd h0 he hτ hr hc hV hX (by simpa using by positivity) (hle.trans hlim) n pd inv ap
  exact ⟨u, h1, h2.mono hle, h3⟩

theorem Exact.near (h : u.Exact d) : u.Near (u.matrix.toMatrix d) 0 :=
  ⟨h.rows, h.cols, CloseTo.near ⟨1, by simp, by simp⟩ (by rw [h.det]; simp)⟩

theorem ct_mem {V : Matrix (Fin d) (Fin d) ℂ} (hV : V ∈ unitaryGroup (Fin d) ℂ) : Vᴴ ∈ unitaryGroup (Fin d) ℂ :=
  ct_mem_unitary hV

theorem inverse_near (hd : 0 < d) (hτ : τ.Accurate d t) (h : u.Near V ε) (hV : V ∈ unitaryGroup (Fin d) ℂ)
    (hlim : ε + 3 * d * t ≤ driftLimit) :
    ∃ r, u.inverse τ = .ok r ∧ r.Near Vᴴ (ε + 3 * d * t) ∧ r.operationName = u.operationName ∧
      r.parameterDict = u.parameterDict ∧ r.isInverse = !u.isInverse ∧ r.applyTo = u.applyTo := by
  obtain ⟨h1, h2, h3⟩ := h
  unfold Unitary.inverse
  rw [show u.getDimension = d from h1]
  exact new_near (a := u.matrix.ct) hd hτ h2 h1 (ct_mem hV) (by rw [Arr.toMatrix_ct]; exact h3.ct) hlim _ _ _ _

/-- The constructor on a computed product. -/
theorem new_matmul_near (hd : 0 < d) (hτ : τ.Accurate d t) (hu : u.Near V ε) (hv : v.Near W ε')
    (hV : V ∈ unitaryGroup (Fin d) ℂ) (hW : W ∈ unitaryGroup (Fin d) ℂ)
    (hlim : (1 + ε) * (1 + ε') - 1 + 3 * d * t ≤ driftLimit) :
    ∃ r, Unitary.new τ d (some (τ.matmul u.matrix v.matrix)) = .ok r ∧
      r.Near (V * W) ((1 + ε) * (1 + ε') - 1 + 3 * d * t) := by
  have htn := hτ.t_nonneg
  obtain ⟨h0, e, he, ht, hτ⟩ := hτ
  have hd0 : (0 : ℝ) ≤ 3 * d := by positivity
  have hu0 := hu.nonneg
  have hv0 := hv.nonneg
  have hlim' : (1 + ε) * (1 + ε') - 1 + 3 * d * t ≤ 4.9e-9 := hlim
  have h3t : 0 ≤ 3 * d * t := by positivity
  have hle : 3 * d * (τ.tau + 2 * e) ≤ 3 * d * t := mul_le_mul_of_nonneg_left ht hd0
  obtain ⟨h1, h2, h3⟩ := hu
  obtain ⟨k1, k2, k3⟩ := hv
  obtain ⟨r, hr, hn, -⟩ := new_near' (a := τ.matmul u.matrix v.matrix) hd h0 he hτ h1 k2 (mul_mem hV hW)
    (h3.mul hd hV hW k3)
    (by
      rw [← Arr.toMatrix_matmul h2]
      exact norm_le_of_entries (b := u.matrix.matmul v.matrix) (hτ.mul d le_rfl _ _ (h3.1.small hd h1 h2 hV (by nlinarith))
        (k3.1.small hd k1 k2 hW (by nlinarith))))
    (by linarith) none none false []
  exact ⟨r, hr, hn.mono (by linarith)⟩

/-- Error of a product of two stored matrices. -/
noncomputable def mulErr (d : ℕ) (t ε ε' : ℝ) : ℝ := (1 + ε) * (1 + ε') - 1 + 3 * d * t

theorem leftMultiply_near (hd : 0 < d) (hτ : τ.Accurate d t) (hu : u.Near V ε) (hv : v.Near W ε')
    (hV : V ∈ unitaryGroup (Fin d) ℂ) (hW : W ∈ unitaryGroup (Fin d) ℂ) (hlim : mulErr d t ε' ε ≤ driftLimit) :
    ∃ r, u.leftMultiply τ v = .ok r ∧ r.Near (W * V) (mulErr d t ε' ε) := by
  unfold Unitary.leftMultiply
  rw [hu.dim, hv.dim, assertE_of rfl, ok_bind]
  exact new_matmul_near hd hτ hv hu hW hV hlim

theorem rightMultiply_near (hd : 0 < d) (hτ : τ.Accurate d t) (hu : u.Near V ε) (hv : v.Near W ε')
    (hV : V ∈ unitaryGroup (Fin d) ℂ) (hW : W ∈ unitaryGroup (Fin d) ℂ) (hlim : mulErr d t ε ε' ≤ driftLimit) :
    ∃ r, u.rightMultiply τ v = .ok r ∧ r.Near (V * W) (mulErr d t ε ε') := by
  unfold Unitary.rightMultiply
  rw [hu.dim, hv.dim, assertE_of rfl, ok_bind]
  exact new_matmul_near hd hτ hu hv hV hW hlim

theorem rewrap_near (hd : 0 < d) (hτ : τ.Accurate d t) (h : u.Near V ε) (hV : V ∈ unitaryGroup (Fin d) ℂ)
    (hlim : ε + 3 * d * t ≤ driftLimit) :
    ∃ r, Unitary.new τ u.getDimension (some u.getMatrix) = .ok r ∧ r.Near V (ε + 3 * d * t) := by
  rw [h.dim]
  obtain ⟨r, hr, hn, -⟩ := new_near (a := u.matrix) hd hτ h.rows h.cols hV h.mat hlim none none false []
  exact ⟨r, hr, hn⟩

/-- A gate matrix as computed. -/
theorem new_gate_near (hd : 0 < d) (hτ : τ.Accurate d t) {a : Arr} (hr : a.rows = d) (hc : a.cols = d)
    (ha : a.toMatrix d ∈ unitaryGroup (Fin d) ℂ) (name : String) {args : List ℝ} (hargs : ∀ x ∈ args, |x| ≤ 100)
    (hlim : 3 * d * t ≤ driftLimit) (n : Option String) (pd : Option ParamDict) (inv : Bool) (ap : List ℕ) :
    ∃ u, Unitary.new τ d (some (τ.gate name args a)) n pd inv ap = .ok u ∧ u.Near (a.toMatrix d) (3 * d * t) ∧
      u.operationName = n.getD "U" ∧ u.parameterDict = pd.getD [] ∧ u.isInverse = inv ∧ u.applyTo = ap := by
  obtain ⟨h0, e, he, ht, hτ⟩ := hτ
  have hd0 : (0 : ℝ) ≤ 3 * d := by positivity
  have hle : 3 * d * (τ.tau + 2 * e) ≤ 3 * d * t := mul_le_mul_of_nonneg_left ht hd0
  have hX : CloseTo (a.toMatrix d) (a.toMatrix d) 0 := ⟨1, by simp, by simp⟩
  obtain ⟨u, h1, h2, -, h3⟩ := new_near' (a := τ.gate name args a) hd h0 he hτ hr hc ha
    (hX.near (norm_det_of_unitary ha))
    (norm_le_of_entries (b := a) (hτ.entries d le_rfl name args a hargs (hX.small hd hr hc ha (by norm_num))))
    (by rw [zero_add]; exact hle.trans hlim) n pd inv ap
  exact ⟨u, h1, h2.mono (by rw [zero_add]; exact hle), h3⟩

/-- A matrix exponential as computed. -/
theorem new_evolved_near (hd : 0 < d) (hτ : τ.Accurate d t) {a : Arr} (hr : a.rows = d) (hc : a.cols = d)
    (ha : a.toMatrix d ∈ unitaryGroup (Fin d) ℂ) {h : Arr} {x : ℝ} (hx : |x| * ‖h.toMatrix d‖ ≤ 100)
    (hlim : 3 * d * t ≤ driftLimit) (n : Option String) (pd : Option ParamDict) (inv : Bool) (ap : List ℕ) :
    ∃ u, Unitary.new τ d (some (τ.evolved h x a)) n pd inv ap = .ok u ∧ u.Near (a.toMatrix d) (3 * d * t) ∧
      u.operationName = n.getD "U" ∧ u.parameterDict = pd.getD [] ∧ u.isInverse = inv ∧ u.applyTo = ap := by
  obtain ⟨h0, e, he, ht, hτ⟩ := hτ
  have hd0 : (0 : ℝ) ≤ 3 * d := by positivity
  have hle : 3 * d * (τ.tau + 2 * e) ≤ 3 * d * t := mul_le_mul_of_nonneg_left ht hd0
  have hX : CloseTo (a.toMatrix d) (a.toMatrix d) 0 := ⟨1, by simp, by simp⟩
  obtain ⟨u, h1, h2, -, h3⟩ := new_near' (a := τ.evolved h x a) hd h0 he hτ hr hc ha
    (hX.near (norm_det_of_unitary ha))
    (norm_le_of_entries (b := a) (hτ.evolution d le_rfl h a x hx (hX.small hd hr hc ha (by norm_num))))
    (by rw [zero_add]; exact hle.trans hlim) n pd inv ap
  exact ⟨u, h1, h2.mono (by rw [zero_add]; exact hle), h3⟩

/-- A gate matrix as computed, not yet passed to the constructor. -/
theorem gate_nearMat (hd : 0 < d) (hτ : τ.Accurate d t) {a : Arr} (hr : a.rows = d) (hc : a.cols = d)
    (ha : a.toMatrix d ∈ unitaryGroup (Fin d) ℂ) (name : String) {args : List ℝ} (hargs : ∀ x ∈ args, |x| ≤ 100)
    (hlim : 3 * d * t ≤ driftLimit) :
    NearMat ((τ.gate name args a).toMatrix d) (a.toMatrix d) (3 / 2 * d * t) := by
  have htn := hτ.t_nonneg
  obtain ⟨h0, e, he, ht, hτ⟩ := hτ
  have hX : CloseTo (a.toMatrix d) (a.toMatrix d) 0 := ⟨1, by simp, by simp⟩
  have hn := norm_le_of_entries (a := τ.gate name args a) (b := a)
    (hτ.entries d le_rfl name args a hargs (hX.small hd hr hc ha (by norm_num)))
  have hdt : (0 : ℝ) ≤ d * t := by positivity
  have hde : (d : ℝ) * e ≤ 1 / 2 * (d * t) := by
    have := mul_le_mul_of_nonneg_left (show e ≤ 1 / 2 * t by linarith) (Nat.cast_nonneg (α := ℝ) d)
    linarith
  have hlim' : 3 * d * t ≤ 4.9e-9 := hlim
  obtain ⟨h1, h2⟩ := hX.rescale hd ha (norm_det_of_unitary ha) hn (by norm_num at hlim' ⊢; linarith)
    (z := (1 / (a.toMatrix d + ((τ.gate name args a).toMatrix d - a.toMatrix d)).det) ^ (1 / (d : ℂ))) (phase_pow hd _)
  have hz := phase_pow hd (a.toMatrix d + ((τ.gate name args a).toMatrix d - a.toMatrix d)).det
  rw [add_sub_cancel] at h1 h2 hz
  set M := (τ.gate name args a).toMatrix d
  set z := (1 / M.det) ^ (1 / (d : ℂ))
  have hz0 : z ≠ 0 := by
    intro hz0
    rw [hz0, zero_pow hd.ne'] at hz
    exact one_div_ne_zero h1 hz.symm
  refine ⟨(hX.trans_norm hn).mono (by linarith), z⁻¹, z • M, ?_, ?_, h2.mono (by linarith)⟩
  · rw [smul_smul, inv_mul_cancel₀ hz0, one_smul]
  · rw [det_smul, Fintype.card_fin, hz, one_div, inv_mul_cancel₀ h1, norm_one]

/-- The identity is stored exactly. -/
theorem clean_identity (ht : t ≤ 1) : (Arr.identity d).clean t = Arr.identity d := by
  unfold Arr.clean Arr.identity
  congr 1
  funext i j
  have h0 : Arr.cleanR t 0 = 0 := by unfold Arr.cleanR; split <;> rfl
  have h1 : Arr.cleanR t 1 = 1 := by unfold Arr.cleanR; rw [if_neg]; simpa using ht
  by_cases h : i = j
  · simp only [h, if_true, Complex.one_re, Complex.one_im, h0, h1]; rfl
  · simp only [h, if_false, Complex.zero_re, Complex.zero_im, h0]; rfl

theorem new_identity (hd : 0 < d) (hτ : τ.Accurate d t) (ht : t ≤ 1) (n : Option String) :
    Unitary.new τ d (some (Arr.identity d)) n =
      .ok { matrix := Arr.identity d, operationName := n.getD "U", parameterDict := [], isInverse := false,
            applyTo := [] } := by
  rw [new_eq_ok]
  simp only [Option.getD_some, clean_identity (hτ.tau_le.trans ht)]
  obtain ⟨h0, e, he, -, hτ⟩ := hτ
  have hdet : (Arr.identity d).det = 1 := by
    rw [Arr.det_eq (d := d) rfl, Arr.toMatrix_identity, det_one]
  refine ⟨hd, rfl, rfl, ?_, by rw [hdet]; exact one_ne_zero, ?_⟩
  · refine Arr.allclose_of_eq (d := d) rfl rfl ?_
    funext i j
    exact hτ.one_mul d le_rfl i i.2 j j.2
  · rw [show τ.balanced d (Arr.identity d) = Arr.identity d by
      unfold Arith.balanced; rw [hτ.one_balance d le_rfl]]
    rfl

theorem identity_near (hd : 0 < d) (hτ : τ.Accurate d t) (ht : t ≤ 1) (n : Option String) :
    ∃ u, Unitary.new τ d (some (Arr.identity d)) n = .ok u ∧ u.Near (1 : Matrix (Fin d) (Fin d) ℂ) 0 :=
  ⟨_, new_identity hd hτ ht n, rfl, rfl,
    CloseTo.near ⟨1, by simp, by simp [Arr.toMatrix_identity]⟩ (by simp [Arr.toMatrix_identity])⟩

theorem norm_trace_le_norm (A : Matrix (Fin d) (Fin d) ℂ) : ‖A.trace‖ ≤ d * ‖A‖ := by
  unfold Matrix.trace
  refine (norm_sum_le _ _).trans ?_
  calc ∑ i, ‖A.diag i‖ ≤ ∑ _i : Fin d, ‖A‖ := Finset.sum_le_sum fun i _ => entry_le_norm A i i
    _ = _ := by simp

theorem CloseTo.overlap {X V : Matrix (Fin d) (Fin d) ℂ} {ε : ℝ} (hd : 0 < d) (h : CloseTo X V ε) :
    |‖X.trace‖ / d - ‖V.trace‖ / d| ≤ ε := by
  obtain ⟨c, hc, h⟩ := h
  have h5 := norm_trace_le_norm (X - c • V)
  rw [trace_sub, trace_smul] at h5
  have h6 : ‖c • V.trace‖ = ‖V.trace‖ := by rw [norm_smul, hc, one_mul]
  have h7 := abs_norm_sub_norm_le X.trace (c • V.trace)
  rw [h6] at h7
  have hd' : (0 : ℝ) < d := by exact_mod_cast hd
  rw [← sub_div, abs_div, abs_of_pos hd', div_le_iff₀ hd']
  calc _ ≤ _ := h7
    _ ≤ _ := h5
    _ ≤ d * ε := mul_le_mul_of_nonneg_left h hd'.le
    _ = _ := by ring

/-- `distance_from` is close to the ideal distance. -/
theorem distanceFrom_near (hd : 0 < d) (hτ : τ.Accurate d t) (hu : u.Near V ε) (hv : v.Near W ε')
    (hV : V ∈ unitaryGroup (Fin d) ℂ) (hW : W ∈ unitaryGroup (Fin d) ℂ) (hlim : ε + 3 * d * t ≤ driftLimit)
    (hε' : ε' ≤ 1 / 20) :
    ∃ x, u.distanceFrom τ v = .ok x ∧ |x - (1 - overlap V W)| ≤ (1 + (ε + 3 * d * t)) * (1 + ε') - 1 := by
  have hu0 := hu.nonneg
  have hv0 := hv.nonneg
  have htn := hτ.t_nonneg
  obtain ⟨h0, e, he, ht, hτ⟩ := hτ
  have hd1 : (1 : ℝ) ≤ d := by exact_mod_cast hd
  have hd0 : (0 : ℝ) ≤ 3 * d := by positivity
  have hle : 3 * d * (τ.tau + 2 * e) ≤ 3 * d * t := mul_le_mul_of_nonneg_left ht hd0
  obtain ⟨h1, h2, h3⟩ := hu
  obtain ⟨k1, k2, k3⟩ := hv
  obtain ⟨i, hi, hin, hic, -⟩ := new_near' (a := u.matrix.ct) (X := (u.matrix.toMatrix d)ᴴ) hd h0 he hτ h2 h1 (ct_mem hV)
    h3.ct (by rw [Arr.toMatrix_ct]; simpa using by positivity) (by linarith) (some u.getOperationName)
    (some u.parameterDict) (!u.isInverse) u.applyTo
  have hinv : u.inverse τ = .ok i := by
    unfold Unitary.inverse; rw [show u.getDimension = d from h1]; exact hi
  refine ⟨τ.distance d (τ.matmul i.matrix v.matrix), ?_, ?_⟩
  · unfold Unitary.distanceFrom Unitary.distanceFromArr
    rw [show u.getDimension = d from h1, assertE_of ⟨k1, k2⟩, ok_bind, hinv, ok_bind]
    rfl
  have hlim1 : ε + 3 * d * t ≤ 4.9e-9 := hlim
  have he1 : d * e ≤ 1e-9 := by nlinarith
  set s := ε + 3 * d * (τ.tau + 4 / 3 * e) with hs
  have hs0 : 0 ≤ s := by positivity
  have hst : s + 2 * d * e ≤ ε + 3 * d * t := by rw [hs]; linarith
  have hde : e ≤ d * e := by nlinarith
  have hmul : ‖(τ.matmul i.matrix v.matrix).toMatrix d - i.matrix.toMatrix d * v.matrix.toMatrix d‖ ≤ d * e := by
    rw [← Arr.toMatrix_matmul hin.cols]
    exact norm_le_of_entries (b := i.matrix.matmul v.matrix) (hτ.mul d le_rfl _ _
      (hic.small hd hin.rows hin.cols (ct_mem hV) (by linarith)) (k3.1.small hd k1 k2 hW (by linarith)))
  have hc := (hic.mul hd (ct_mem hV) hW k3.1).trans_norm hmul
  have hdist := hτ.distance d le_rfl (τ.matmul i.matrix v.matrix)
    (hc.small hd hin.rows k2 (mul_mem (ct_mem hV) hW) (by nlinarith))
  rw [Arr.trace_eq (a := τ.matmul i.matrix v.matrix) (d := d) hin.rows] at hdist
  have hov := CloseTo.overlap hd hc
  unfold overlap
  have h8 : (1 + s) * (1 + ε') - 1 + d * e + e ≤ (1 + (ε + 3 * d * t)) * (1 + ε') - 1 := by nlinarith
  rw [abs_le] at hdist hov ⊢
  constructor <;> linarith [hdist.1, hdist.2, hov.1, hov.2]

end Unitary

end Stoq
