import Verif.Proofs.DriftEntry

/-! # The error of `tensor` -/

namespace Stoq

open Matrix

open scoped Matrix.Norms.L2Operator Kronecker

variable {d d₁ d₂ : ℕ}

/-- The index pairing of a tensor product. -/
def tensorEquiv (h : d₁ * d₂ = d) : Fin d ≃ Fin d₁ × Fin d₂ := (finCongr h.symm).trans finProdFinEquiv.symm

/-- The tensor product as a matrix of dimension `d`. -/
def tensorMat (h : d₁ * d₂ = d) (V : Matrix (Fin d₁) (Fin d₁) ℂ) (W : Matrix (Fin d₂) (Fin d₂) ℂ) :
    Matrix (Fin d) (Fin d) ℂ :=
  (V ⊗ₖ W).submatrix (tensorEquiv h) (tensorEquiv h)

theorem tensorMat_apply (h : d₁ * d₂ = d) (V : Matrix (Fin d₁) (Fin d₁) ℂ) (W : Matrix (Fin d₂) (Fin d₂) ℂ) (i j : Fin d) :
    tensorMat h V W i j = V ⟨i / d₂, Nat.div_lt_of_lt_mul (by rw [mul_comm, h]; exact i.2)⟩
        ⟨j / d₂, Nat.div_lt_of_lt_mul (by rw [mul_comm, h]; exact j.2)⟩ *
      W ⟨i % d₂, Nat.mod_lt _ (Nat.pos_of_ne_zero (by rintro rfl; rw [mul_zero] at h; subst h; exact i.elim0))⟩
        ⟨j % d₂, Nat.mod_lt _ (Nat.pos_of_ne_zero (by rintro rfl; rw [mul_zero] at h; subst h; exact i.elim0))⟩ := rfl

theorem tensorMat_mul (h : d₁ * d₂ = d) (A B : Matrix (Fin d₁) (Fin d₁) ℂ) (A' B' : Matrix (Fin d₂) (Fin d₂) ℂ) :
    tensorMat h A A' * tensorMat h B B' = tensorMat h (A * B) (A' * B') := by
  unfold tensorMat
  rw [submatrix_mul_equiv, ← mul_kronecker_mul]

theorem tensorMat_one (h : d₁ * d₂ = d) : tensorMat h (1 : Matrix (Fin d₁) (Fin d₁) ℂ) (1 : Matrix (Fin d₂) (Fin d₂) ℂ) = 1 := by
  unfold tensorMat
  rw [one_kronecker_one, submatrix_one_equiv]

theorem tensorMat_mem (h : d₁ * d₂ = d) {V : Matrix (Fin d₁) (Fin d₁) ℂ} {W : Matrix (Fin d₂) (Fin d₂) ℂ}
    (hV : V ∈ unitaryGroup (Fin d₁) ℂ) (hW : W ∈ unitaryGroup (Fin d₂) ℂ) : tensorMat h V W ∈ unitaryGroup (Fin d) ℂ := by
  have h5 := kronecker_mem_unitary hV hW
  rw [mem_unitaryGroup_iff, star_eq_conjTranspose] at h5 ⊢
  unfold tensorMat
  rw [conjTranspose_submatrix, submatrix_mul_equiv, h5, submatrix_one_equiv]

theorem NearMat.tensor (h : d₁ * d₂ = d) (hd : 0 < d) {X V : Matrix (Fin d₁) (Fin d₁) ℂ} {Y W : Matrix (Fin d₂) (Fin d₂) ℂ}
    {ε ε' : ℝ} (hV : V ∈ unitaryGroup (Fin d₁) ℂ) (hW : W ∈ unitaryGroup (Fin d₂) ℂ) (hX : NearMat X V ε)
    (hY : NearMat Y W ε') : NearMat (tensorMat h X Y) (tensorMat h V W) ((1 + ε) * (1 + ε') - 1) := by
  have e : ∀ (A : Matrix (Fin d₁) (Fin d₁) ℂ) (B : Matrix (Fin d₂) (Fin d₂) ℂ),
      tensorMat h A B = tensorMat h A 1 * tensorMat h 1 B := fun A B => by rw [tensorMat_mul, mul_one, one_mul]
  have h1 : NearMat (tensorMat h X 1) (tensorMat h V 1) ε := hX.expand (tensorEquiv h)
  have e2 : ∀ B : Matrix (Fin d₂) (Fin d₂) ℂ, tensorMat h (1 : Matrix (Fin d₁) (Fin d₁) ℂ) B =
      (B ⊗ₖ (1 : Matrix (Fin d₁) (Fin d₁) ℂ)).submatrix ((tensorEquiv h).trans (Equiv.prodComm _ _))
        ((tensorEquiv h).trans (Equiv.prodComm _ _)) := by
    intro B
    ext i j
    exact mul_comm _ _
  have h2 : NearMat (tensorMat h 1 Y) (tensorMat h 1 W) ε' := by
    rw [e2, e2]
    exact hY.expand _
  rw [e X Y, e V W]
  exact h1.mul hd (tensorMat_mem h hV (one_mem _)) (tensorMat_mem h (one_mem _) hW) h2

theorem Arr.kron_tensorMat (h : d₁ * d₂ = d) {A B : Arr} (hr : B.rows = d₂) (hc : B.cols = d₂) :
    (A.kron B).toMatrix d = tensorMat h (A.toMatrix d₁) (B.toMatrix d₂) := by
  ext i j
  rw [tensorMat_apply]
  simp [Arr.toMatrix, Arr.kron, hr, hc]

namespace Unitary

variable {τ : Arith} {t ε ε' : ℝ} {u v : Unitary} {V : Matrix (Fin d₁) (Fin d₁) ℂ} {W : Matrix (Fin d₂) (Fin d₂) ℂ}

theorem tensor_near (h : d₁ * d₂ = d) (hd : 0 < d) (hτ : τ.Accurate d t) (hu : u.Near V ε) (hv : v.Near W ε')
    (hV : V ∈ unitaryGroup (Fin d₁) ℂ) (hW : W ∈ unitaryGroup (Fin d₂) ℂ)
    (hlim : (1 + ε) * (1 + ε') - 1 + 3 * d * t ≤ driftLimit) :
    ∃ r, u.tensor τ v = .ok r ∧ r.Near (tensorMat h V W) ((1 + ε) * (1 + ε') - 1 + 3 * d * t) := by
  have htn := hτ.t_nonneg
  have hu0 := hu.nonneg
  have hv0 := hv.nonneg
  have hd1 : 0 < d₁ := Nat.pos_of_ne_zero (by rintro rfl; rw [zero_mul] at h; omega)
  have hd2 : 0 < d₂ := Nat.pos_of_ne_zero (by rintro rfl; rw [mul_zero] at h; omega)
  have hdt : 0 ≤ 3 * d * t := by positivity
  have hlim' : (1 + ε) * (1 + ε') - 1 + 3 * d * t ≤ 4.9e-9 := hlim
  have hprod : 0 ≤ ε * ε' := mul_nonneg hu0 hv0
  have hb : ε + ε' ≤ 4.9e-9 := by linarith
  obtain ⟨h0, e, he, ht, hr⟩ := hτ
  have hle' : 3 * d * (τ.tau + 2 * e) ≤ 3 * d * t := mul_le_mul_of_nonneg_left ht (by positivity)
  have hX : NearMat ((u.matrix.kron v.matrix).toMatrix d) (tensorMat h V W) ((1 + ε) * (1 + ε') - 1) := by
    rw [Arr.kron_tensorMat h hv.rows hv.cols]
    exact hu.mat.tensor h hd hV hW hv.mat
  have hk := hr.kron d₁ d₂ h.le u.matrix v.matrix (hu.close.small hd1 hu.rows hu.cols hV (by linarith))
    (hv.close.small hd2 hv.rows hv.cols hW (by linarith))
  rw [h] at hk
  obtain ⟨r, h1, h2, -⟩ := Unitary.new_near' (a := τ.kron u.matrix v.matrix) hd h0 he hr
    (by show u.matrix.rows * v.matrix.rows = d; rw [hu.rows, hv.rows, h])
    (by show u.matrix.cols * v.matrix.cols = d; rw [hu.cols, hv.cols, h]) (tensorMat_mem h hV hW) hX
    (norm_le_of_entries (b := u.matrix.kron v.matrix) hk) (by unfold driftLimit; linarith)
    (some (u.getOperationName ++ "--" ++ v.getOperationName)) (some u.parameterDict) false u.applyTo
  refine ⟨r, ?_, h2.mono (by linarith)⟩
  unfold Unitary.tensor
  rw [hu.dim, hv.dim, mul_comm, h]
  exact h1

end Unitary

end Stoq
