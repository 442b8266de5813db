import Verif.Proofs.Drift
import Mathlib.Algebra.Star.StarAlgHom

/-! # The clean-up of small values and `get_full_unitary` -/

namespace Stoq

open Matrix

open scoped Matrix.Norms.L2Operator Kronecker

section Norms

variable {ι κ : Type} [Fintype ι] [DecidableEq ι] [Fintype κ] [DecidableEq κ]

/-- Relabelling as a star homomorphism. -/
def relabelHom (e : ι ≃ κ) : Matrix κ κ ℂ →⋆ₐ[ℂ] Matrix ι ι ℂ where
  toFun A := A.submatrix e e
  map_one' := by simp
  map_mul' A B := by rw [submatrix_mul_equiv]
  map_zero' := by simp
  map_add' A B := rfl
  commutes' c := by
    ext i j
    simp [Matrix.algebraMap_matrix_apply]
  map_star' A := by simp [star_eq_conjTranspose, conjTranspose_submatrix]

theorem norm_submatrix_le (e : ι ≃ κ) (A : Matrix κ κ ℂ) : ‖A.submatrix e e‖ ≤ ‖A‖ :=
  NonUnitalStarAlgHom.norm_apply_le (relabelHom e) A

/-- Tensoring with the identity as a star homomorphism. -/
def kronHom (κ : Type) [Fintype κ] [DecidableEq κ] : Matrix ι ι ℂ →⋆ₐ[ℂ] Matrix (ι × κ) (ι × κ) ℂ where
  toFun A := A ⊗ₖ (1 : Matrix κ κ ℂ)
  map_one' := one_kronecker_one
  map_mul' A B := by rw [← mul_kronecker_mul, mul_one]
  map_zero' := by simp
  map_add' A B := by rw [add_kronecker]
  commutes' c := by
    rw [Algebra.algebraMap_eq_smul_one, smul_kronecker, one_kronecker_one, Algebra.algebraMap_eq_smul_one]
  map_star' A := by
    rw [star_eq_conjTranspose, star_eq_conjTranspose, conjTranspose_kronecker, conjTranspose_one]

theorem norm_kron_one_le (A : Matrix ι ι ℂ) : ‖A ⊗ₖ (1 : Matrix κ κ ℂ)‖ ≤ ‖A‖ :=
  NonUnitalStarAlgHom.norm_apply_le (kronHom κ) A

theorem CloseTo.submatrix {d : ℕ} {X V : Matrix (Fin d) (Fin d) ℂ} {ε : ℝ} (h : CloseTo X V ε) (f : Fin d ≃ Fin d) :
    CloseTo (X.submatrix f f) (V.submatrix f f) ε := by
  obtain ⟨c, hc, h⟩ := h
  refine ⟨c, hc, ?_⟩
  have : X.submatrix f f - c • V.submatrix f f = (X - c • V).submatrix f f := by ext i j; simp
  rw [this]
  exact (norm_submatrix_le _ _).trans h

theorem NearMat.submatrix {d : ℕ} {X V : Matrix (Fin d) (Fin d) ℂ} {ε : ℝ} (h : NearMat X V ε) (f : Fin d ≃ Fin d) :
    NearMat (X.submatrix f f) (V.submatrix f f) ε := by
  obtain ⟨h, r, X', h1, h2, h3⟩ := h
  exact ⟨h.submatrix f, r, X'.submatrix f f, by rw [h1]; rfl, by rw [det_submatrix_equiv_self, h2], h3.submatrix f⟩

theorem CloseTo.expand {d d' m : ℕ} {X V : Matrix (Fin d) (Fin d) ℂ} {ε : ℝ} (h : CloseTo X V ε)
    (f : Fin m ≃ Fin d × Fin d') :
    CloseTo ((X ⊗ₖ (1 : Matrix (Fin d') (Fin d') ℂ)).submatrix f f) ((V ⊗ₖ (1 : Matrix (Fin d') (Fin d') ℂ)).submatrix f f) ε := by
  obtain ⟨c, hc, h⟩ := h
  refine ⟨c, hc, ?_⟩
  have : (X ⊗ₖ (1 : Matrix (Fin d') (Fin d') ℂ)).submatrix f f - c • (V ⊗ₖ (1 : Matrix (Fin d') (Fin d') ℂ)).submatrix f f =
      ((X - c • V) ⊗ₖ (1 : Matrix (Fin d') (Fin d') ℂ)).submatrix f f := by
    ext i j; simp [sub_mul, mul_assoc]
  rw [this]
  exact (norm_submatrix_le _ _).trans ((norm_kron_one_le _).trans h)

theorem NearMat.expand {d d' m : ℕ} {X V : Matrix (Fin d) (Fin d) ℂ} {ε : ℝ} (h : NearMat X V ε)
    (f : Fin m ≃ Fin d × Fin d') :
    NearMat ((X ⊗ₖ (1 : Matrix (Fin d') (Fin d') ℂ)).submatrix f f) ((V ⊗ₖ (1 : Matrix (Fin d') (Fin d') ℂ)).submatrix f f) ε := by
  obtain ⟨h, r, X', h1, h2, h3⟩ := h
  refine ⟨h.expand f, r, (X' ⊗ₖ (1 : Matrix (Fin d') (Fin d') ℂ)).submatrix f f, ?_, ?_, h3.expand f⟩
  · rw [h1, smul_kronecker]; rfl
  · rw [det_submatrix_equiv_self, det_kronecker, norm_mul, norm_pow, h2]; simp

end Norms

namespace EntryVal

variable {n : ℕ} {a : List ℕ} {τ : Arith} {t : ℝ}

/-- The relabelling of basis states done by the permutation matrix. -/
noncomputable def outEquiv (n : ℕ) (a : List ℕ) (hnd : a.Nodup) (hlt : ∀ q ∈ a, q < n) : Fin (2 ^ n) ≃ Fin (2 ^ n) :=
  Equiv.ofBijective (fun r => ⟨outIdx n a r, outIdx_lt n a r⟩) <|
    Finite.injective_iff_bijective.mp fun r c h => Fin.ext (outIdx_inj hnd hlt r.2 c.2 (by simpa using h))

theorem permute_conj' (hnd : a.Nodup) (hlt : ∀ q ∈ a, q < n) (E : Arr) (hc : E.cols = 2 ^ n) :
    (((permuteArr n a).matmul E).matmul (permuteArr n a).transpose).toMatrix (2 ^ n) =
      (E.toMatrix (2 ^ n)).submatrix (outEquiv n a hnd hlt) (outEquiv n a hnd hlt) := by
  rw [permute_conj E hc]; rfl

/-- The index pairing of the expanded matrix. -/
def expandEquiv {n k : ℕ} (h : k ≤ n) : Fin (2 ^ n) ≃ Fin (2 ^ k) × Fin (2 ^ (n - k)) :=
  (finCongr (by rw [← pow_add, Nat.add_sub_cancel' h])).trans finProdFinEquiv.symm

theorem kron_toMatrix {k : ℕ} (h : k ≤ n) {A B : Arr} (hr : B.rows = 2 ^ (n - k)) (hc : B.cols = 2 ^ (n - k)) :
    (A.kron B).toMatrix (2 ^ n) = (A.toMatrix (2 ^ k) ⊗ₖ B.toMatrix (2 ^ (n - k))).submatrix
      (expandEquiv h) (expandEquiv h) := by
  ext i j
  simp [Arr.toMatrix, Arr.kron, hr, hc, expandEquiv, finProdFinEquiv, Fin.divNat, Fin.modNat]

theorem expand_embed (hnd : a.Nodup) (hlt : ∀ q ∈ a, q < n) (h : a.length ≤ n)
    (V : Matrix (Fin (2 ^ a.length)) (Fin (2 ^ a.length)) ℂ) :
    ((V ⊗ₖ (1 : Matrix (Fin (2 ^ (n - a.length))) (Fin (2 ^ (n - a.length))) ℂ)).submatrix (expandEquiv h)
      (expandEquiv h)).submatrix (outEquiv n a hnd hlt) (outEquiv n a hnd hlt) = embed n a V := by
  ext r c
  simp only [submatrix_apply, kroneckerMap_apply, expandEquiv, outEquiv, Equiv.trans_apply, Equiv.ofBijective_apply,
    finCongr_apply, finProdFinEquiv, Equiv.coe_fn_symm_mk, Fin.divNat, Fin.modNat, one_apply, Fin.mk.injEq,
    Fin.val_cast, outIdx_div hnd hlt, outIdx_mod hnd hlt, embed]
  split <;> simp

/-- `get_full_unitary` of an entry close to an ideal gate. -/
theorem fullUnitary_near {e : EntryVal} {g : Gate} {ε : ℝ} (hτ : τ.Accurate (2 ^ n) t) (hτ1 : t ≤ 1) (he : e.Realises g ε)
    (hg : g.Ok n) (hlim : ε + 6 * 2 ^ n * t ≤ driftLimit) :
    ∃ f, e.fullUnitary τ (2 ^ n) = .ok f ∧ f.Near (g.op n) (ε + 6 * 2 ^ n * t) := by
  obtain ⟨ha, hnear⟩ := he
  obtain ⟨u, ap⟩ := e
  obtain ⟨qs, V⟩ := g
  obtain ⟨hnd, hne, hlt, hV⟩ := hg
  simp only at ha hnd hne hlt hV hnear
  subst ha
  have hle : ap.length ≤ n := EntryVal.length_le hnd hlt
  have hmul : 2 ^ ap.length * 2 ^ (n - ap.length) = 2 ^ n := by
    rw [← pow_add, Nat.add_sub_cancel' hle]
  have hdiv : 2 ^ n / 2 ^ ap.length = 2 ^ (n - ap.length) := Nat.pow_div hle (by norm_num)
  have hwf : EntryVal.WF ⟨u, ap⟩ := ⟨hnd, hne, hnear.dim⟩
  have hf : EntryVal.Fits ⟨u, ap⟩ n := hlt
  have hpos : 0 < 2 ^ n := Nat.two_pow_pos n
  have hpos' : 0 < 2 ^ (n - ap.length) := Nat.two_pow_pos _
  have hcast : ((2 ^ n : ℕ) : ℝ) = 2 ^ n := by norm_num
  have htn := hτ.t_nonneg
  have h2τ : 0 ≤ (2 : ℝ) ^ n * t := by positivity
  have hd : (⟨u, ap⟩ : EntryVal).getDimension = 2 ^ ap.length := hnear.dim
  have hdu : u.getDimension = 2 ^ ap.length := hnear.dim
  have hε0 := hnear.nonneg
  have hlim' : ε + 6 * 2 ^ n * t ≤ 4.9e-9 := hlim
  obtain ⟨h1, h2, h3⟩ := hnear
  unfold fullUnitary
  rw [assertE_of (hwf.dim_le hf), ok_bind, hd, hdiv, Unitary.identity,
    Unitary.new_identity hpos' (hτ.mono (Nat.pow_le_pow_right (by norm_num) (Nat.sub_le _ _))) hτ1, ok_bind]
  simp only
  set I := Arr.identity (2 ^ (n - ap.length)) with hI
  set K : Matrix (Fin (2 ^ n)) (Fin (2 ^ n)) ℂ :=
    (V ⊗ₖ (1 : Matrix (Fin (2 ^ (n - ap.length))) (Fin (2 ^ (n - ap.length))) ℂ)).submatrix (expandEquiv hle)
      (expandEquiv hle) with hK
  have hEmat : ((u.matrix.kron I).toMatrix (2 ^ n)) =
      (u.matrix.toMatrix (2 ^ ap.length) ⊗ₖ (1 : Matrix (Fin (2 ^ (n - ap.length))) (Fin (2 ^ (n - ap.length))) ℂ)).submatrix
        (expandEquiv hle) (expandEquiv hle) := by
    rw [kron_toMatrix hle rfl rfl, hI, Arr.toMatrix_identity]
  have hemb := expand_embed hnd hlt hle V
  have hembu : embed n ap V ∈ unitaryGroup _ ℂ := embed_mem_unitary hnd hlt hV
  have hKu : K ∈ unitaryGroup (Fin (2 ^ n)) ℂ := by
    have h5 : V ⊗ₖ (1 : Matrix (Fin (2 ^ (n - ap.length))) (Fin (2 ^ (n - ap.length))) ℂ) ∈ unitaryGroup _ ℂ :=
      kronecker_mem_unitary hV (one_mem _)
    rw [mem_unitaryGroup_iff, star_eq_conjTranspose] at h5 ⊢
    rw [hK, conjTranspose_submatrix, submatrix_mul_equiv, h5, submatrix_one_equiv]
  have hE : NearMat ((u.matrix.kron I).toMatrix (2 ^ n)) K ε := by
    rw [hEmat, hK]; exact h3.expand (expandEquiv hle)
  obtain ⟨E, hEnew, hEnear⟩ : ∃ E, Unitary.new τ (2 ^ n) (some (τ.kron u.matrix I))
      (some (u.getOperationName ++ "--" ++ "I")) (some u.parameterDict) false u.applyTo = .ok E ∧
      E.Near K (ε + 3 * 2 ^ n * t) := by
    obtain ⟨h0, e, he, ht, hr⟩ := hτ
    have hle' : 3 * 2 ^ n * (τ.tau + 2 * e) ≤ 3 * 2 ^ n * t := mul_le_mul_of_nonneg_left ht (by positivity)
    obtain ⟨E, hEnew, hEnear, -⟩ := Unitary.new_near' (d := 2 ^ n) (a := τ.kron u.matrix I) hpos h0 he hr
      (by simp [Arith.kron, hI, Arr.identity, h1, hmul]) (by simp [Arith.kron, hI, Arr.identity, h2, hmul]) hKu hE
      (norm_le_of_entries (b := u.matrix.kron I) (by
        have := hr.kron (2 ^ ap.length) (2 ^ (n - ap.length)) hmul.le u.matrix I
          (h3.1.small (Nat.two_pow_pos _) h1 h2 hV (by linarith))
          ⟨rfl, rfl, by
            have : Nonempty (Fin (2 ^ (n - ap.length))) := ⟨⟨0, hpos'⟩⟩
            rw [hI, Arr.toMatrix_identity, norm_one]; norm_num⟩
        rw [hmul] at this
        exact this))
      (by rw [hcast]; unfold driftLimit; linarith) (some (u.getOperationName ++ "--" ++ "I")) (some u.parameterDict) false u.applyTo
    exact ⟨E, hEnew, hEnear.mono (by rw [hcast]; linarith)⟩
  have htensor : u.tensor τ ⟨I, (some "I").getD "U", [], false, []⟩ = .ok E := by
    unfold Unitary.tensor
    rw [← hEnew, hdu]
    show Unitary.new τ (2 ^ (n - ap.length) * 2 ^ ap.length) _ _ _ _ _ = _
    rw [Nat.mul_comm, hmul]
    rfl
  rw [htensor, ok_bind, assertE_of hEnear.dim, ok_bind, getPermuteMatrix_eq hwf hf, ok_bind]
  have hfull := permute_conj' hnd hlt E.matrix hEnear.cols
  obtain ⟨F, hFnew, hFnear, -⟩ := Unitary.new_near (d := 2 ^ n) hpos hτ
    (a := ((permuteArr n ap).matmul E.matrix).matmul (permuteArr n ap).transpose) (V := embed n ap V)
    (ε := ε + 3 * 2 ^ n * t) rfl rfl hembu
    (by rw [hfull, ← hemb]; exact hEnear.mat.submatrix _)
    (by rw [hcast]; linarith) (some u.getOperationName) (some u.parameterDict) false ap
  refine ⟨F, hFnew, hFnear.mono ?_⟩
  rw [hcast]; linarith

/-- Entries that do not fit are refused. -/
theorem fullUnitary_reject {e : EntryVal} {g : Gate} {ε : ℝ} {m : ℕ} (hτ : τ.Accurate (2 ^ n) t) (hτ1 : t ≤ 1) (he : e.Realises g ε)
    (hg : g.Ok m) (hf : ¬ e.Fits n) (hlim : ε + 6 * 2 ^ n * t ≤ driftLimit) :
    e.fullUnitary τ (2 ^ n) = .error .assertion := by
  obtain ⟨u, ap⟩ := e
  obtain ⟨qs, V⟩ := g
  obtain ⟨ha, hnear⟩ := he
  obtain ⟨hnd, hne, -, hV⟩ := hg
  simp only at ha hnd hne hV hnear
  subst ha
  have hwf : EntryVal.WF ⟨u, ap⟩ := ⟨hnd, hne, hnear.dim⟩
  by_cases hle : (⟨u, ap⟩ : EntryVal).getDimension ≤ 2 ^ n
  · have hle' : ap.length ≤ n := by
      rw [hwf.dim] at hle; exact (Nat.pow_le_pow_iff_right (by norm_num)).mp hle
    have hother : ∀ qs : List ℕ, qs.length = ap.length →
        ∃ V' : Matrix (Fin (2 ^ qs.length)) (Fin (2 ^ qs.length)) ℂ, V' ∈ unitaryGroup _ ℂ ∧ u.Near V' ε := by
      intro qs h
      rw [h]
      exact ⟨V, hV, hnear⟩
    obtain ⟨V', hV', hn'⟩ := hother (List.range ap.length) List.length_range
    obtain ⟨f, hf', -⟩ := fullUnitary_near (n := n) (e := ⟨u, List.range ap.length⟩) (g := ⟨List.range ap.length, V'⟩) hτ hτ1
      ⟨rfl, hn'⟩ ⟨List.nodup_range, by simpa using hne, fun q hq => by
        have := List.mem_range.mp hq; omega, hV'⟩ hlim
    unfold fullUnitary at hf' ⊢
    obtain ⟨-, hf'⟩ := assertE_bind_eq_ok.mp hf'
    obtain ⟨I, hI, hf'⟩ := bind_eq_ok.mp hf'
    obtain ⟨T, hT, hf'⟩ := bind_eq_ok.mp hf'
    obtain ⟨hdim, -⟩ := assertE_bind_eq_ok.mp hf'
    rw [assertE_of hle, ok_bind]
    rw [show (⟨u, ap⟩ : EntryVal).getDimension = (⟨u, List.range ap.length⟩ : EntryVal).getDimension from rfl, hI, ok_bind]
    simp only at hT ⊢
    rw [hT, ok_bind, assertE_of hdim, ok_bind]
    unfold getPermuteMatrix
    rw [assertE_of hle, ok_bind, assertE_of_not (fun h' => hf (fits_of_max_le h'))]; rfl
  · unfold fullUnitary
    rw [assertE_of_not hle]; rfl

end EntryVal

end Stoq
