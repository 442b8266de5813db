import Verif.Proofs.DriftSeq

/-! Stored products stay close to the ideal product of the gates under every mutator. -/

namespace Stoq

open World Matrix
open scoped Matrix.Norms.L2Operator

/-! ## Ideal gates -/

theorem Gate.Ok.op_mem {n : ℕ} {g : Gate} (h : g.Ok n) : g.op n ∈ unitaryGroup (Fin (2 ^ n)) ℂ :=
  embed_mem_unitary h.nodup h.fits h.unitary

theorem Gate.Ok.op_mul_ct {n : ℕ} {g : Gate} (h : g.Ok n) : g.op n * (g.op n)ᴴ = 1 := mem_unitaryGroup_iff.mp h.op_mem
theorem Gate.Ok.op_ct_mul {n : ℕ} {g : Gate} (h : g.Ok n) : (g.op n)ᴴ * g.op n = 1 := mem_unitaryGroup_iff'.mp h.op_mem

theorem gateProduct_mem {n : ℕ} {gs : List Gate} (h : ∀ g ∈ gs, g.Ok n) :
    gateProduct n gs ∈ unitaryGroup (Fin (2 ^ n)) ℂ := by
  induction gs with
  | nil => exact one_mem _
  | cons g gs ih => exact mul_mem (ih fun x hx => h x (by simp [hx])) (h g (by simp)).op_mem

theorem gateProduct_append (n : ℕ) (gs gs' : List Gate) :
    gateProduct n (gs ++ gs') = gateProduct n gs' * gateProduct n gs := by
  induction gs with
  | nil => simp [gateProduct]
  | cons g gs ih => rw [List.cons_append, gateProduct, ih, gateProduct, Matrix.mul_assoc]

theorem gateProduct_concat (n : ℕ) (gs : List Gate) (g : Gate) :
    gateProduct n (gs ++ [g]) = g.op n * gateProduct n gs := by
  rw [gateProduct_append]; simp [gateProduct]

theorem EntryVal.Realises.wf {e : EntryVal} {g : Gate} {ε : ℝ} {n : ℕ} (h : e.Realises g ε) (hg : g.Ok n) : e.WF :=
  ⟨h.1 ▸ hg.nodup, h.1 ▸ hg.nonempty, by rw [h.1]; exact h.2.dim⟩

theorem EntryVal.Realises.fits {e : EntryVal} {g : Gate} {ε : ℝ} {n : ℕ} (h : e.Realises g ε) (hg : g.Ok n) : e.Fits n := by
  unfold EntryVal.Fits; rw [h.1]; exact hg.fits

theorem EntryVal.Realises.nonneg {e : EntryVal} {g : Gate} {ε : ℝ} (h : e.Realises g ε) : 0 ≤ ε := h.2.nonneg

/-! ## Error bookkeeping -/

section

variable {n k k' : ℕ} {τ : Arith} {t ε : ℝ}

theorem stepErr_nonneg (hτ : 0 ≤ t) (hε : 0 ≤ ε) : 0 ≤ stepErr n t ε := by unfold stepErr; positivity

theorem driftErr_mono (hτ : 0 ≤ t) (hε : 0 ≤ ε) (h : k ≤ k') : driftErr n t ε k ≤ driftErr n t ε k' := by
  unfold driftErr
  have := stepErr_nonneg (n := n) hτ hε
  gcongr
  linarith

theorem driftErr_nonneg (hτ : 0 ≤ t) (hε : 0 ≤ ε) : 0 ≤ driftErr n t ε k := by
  have := driftErr_mono (n := n) hτ hε (Nat.zero_le k)
  simpa [driftErr] using this

theorem Budget.t0 (h : Budget n τ t ε k) : 0 ≤ t := h.tau.t_nonneg

theorem Budget.mono (h : Budget n τ t ε k') (hk : k ≤ k') : Budget n τ t ε k :=
  ⟨h.tau, h.tau1, h.eps, (driftErr_mono h.t0 h.eps hk).trans h.lim⟩

theorem driftErr_succ : driftErr n t ε (k + 1) = (1 + driftErr n t ε k) * (1 + stepErr n t ε) - 1 := by
  unfold driftErr; ring

theorem Budget.step (h : Budget n τ t ε (k + 1)) : stepErr n t ε ≤ driftLimit := by
  have h1 := driftErr_mono (n := n) h.t0 h.eps (show 1 ≤ k + 1 by omega)
  have h2 : driftErr n t ε 1 = stepErr n t ε := by unfold driftErr; ring
  linarith [h.lim]

theorem cast_two_pow (n : ℕ) : ((2 ^ n : ℕ) : ℝ) = 2 ^ n := by norm_num

end

section

variable {n k : ℕ} {τ : Arith} {t ε : ℝ} {p : Unitary} {V : Matrix (Fin (2 ^ n)) (Fin (2 ^ n)) ℂ} {e : EntryVal} {g : Gate}

theorem two_pow_tau_nonneg (n : ℕ) (hτ : 0 ≤ t) : 0 ≤ (2 : ℝ) ^ n * t := by positivity

theorem rewrap_drift (hb : Budget n τ t ε (k + 1)) (hV : V ∈ unitaryGroup (Fin (2 ^ n)) ℂ)
    (hp : p.Near V (driftErr n t ε k)) :
    ∃ p', Unitary.new τ p.getDimension (some p.getMatrix) = .ok p' ∧ p'.Near V (driftErr n t ε (k + 1)) := by
  have h0 := driftErr_nonneg (n := n) (k := k) hb.t0 hb.eps
  have h1 := two_pow_tau_nonneg n hb.t0
  have hs := stepErr_nonneg (n := n) hb.t0 hb.eps
  have hle : driftErr n t ε k + 3 * ((2 ^ n : ℕ) : ℝ) * t ≤ driftErr n t ε (k + 1) := by
    rw [driftErr_succ, cast_two_pow]
    have : 3 * 2 ^ n * t ≤ stepErr n t ε := by unfold stepErr; linarith [hb.eps]
    nlinarith [mul_nonneg h0 hs]
  obtain ⟨p', h2, h3⟩ := Unitary.rewrap_near (Nat.two_pow_pos n) hb.tau hp hV (hle.trans hb.lim)
  exact ⟨p', h2, h3.mono hle⟩

theorem full_drift (hb : Budget n τ t ε (k + 1)) (hg : g.Ok n) (he : e.Realises g ε) :
    ∃ f, e.fullUnitary τ (2 ^ n) = .ok f ∧ f.Near (g.op n) (ε + 6 * 2 ^ n * t) := by
  refine EntryVal.fullUnitary_near hb.tau hb.tau1 he hg (le_trans ?_ hb.step)
  have h1 := two_pow_tau_nonneg n hb.t0
  unfold stepErr; linarith

theorem fullInv_drift (hb : Budget n τ t ε (k + 1)) (hg : g.Ok n) {f : Unitary} (hf : f.Near (g.op n) (ε + 6 * 2 ^ n * t)) :
    ∃ i, f.inverse τ = .ok i ∧ i.Near (g.op n)ᴴ (ε + 9 * 2 ^ n * t) := by
  have h1 := two_pow_tau_nonneg n hb.t0
  have hle : ε + 6 * 2 ^ n * t + 3 * ((2 ^ n : ℕ) : ℝ) * t = ε + 9 * 2 ^ n * t := by rw [cast_two_pow]; ring
  obtain ⟨i, h2, h3, -⟩ := Unitary.inverse_near (Nat.two_pow_pos n) hb.tau hf hg.op_mem (by
    rw [hle]; refine le_trans ?_ hb.step; unfold stepErr; linarith)
  exact ⟨i, h2, hle ▸ h3⟩

theorem mulErr_drift (hb : Budget n τ t ε (k + 1)) {η : ℝ} (hη : η ≤ ε + 9 * 2 ^ n * t) :
    Unitary.mulErr (2 ^ n) t η (driftErr n t ε k) ≤ driftErr n t ε (k + 1) := by
  have h0 := driftErr_nonneg (n := n) (k := k) hb.t0 hb.eps
  have h1 := two_pow_tau_nonneg n hb.t0
  unfold Unitary.mulErr
  rw [driftErr_succ, cast_two_pow]
  have h2 : (1 + η) * (1 + driftErr n t ε k) ≤ (1 + (ε + 9 * 2 ^ n * t)) * (1 + driftErr n t ε k) := by gcongr
  unfold stepErr
  nlinarith [mul_nonneg h0 h1]

theorem mulErr_comm (d : ℕ) (t a b : ℝ) : Unitary.mulErr d t a b = Unitary.mulErr d t b a := by unfold Unitary.mulErr; ring

theorem leftMul_drift (hb : Budget n τ t ε (k + 1)) (hV : V ∈ unitaryGroup (Fin (2 ^ n)) ℂ)
    (hp : p.Near V (driftErr n t ε k)) {f : Unitary} {W : Matrix (Fin (2 ^ n)) (Fin (2 ^ n)) ℂ}
    (hW : W ∈ unitaryGroup (Fin (2 ^ n)) ℂ) {η : ℝ} (hf : f.Near W η) (hη : η ≤ ε + 9 * 2 ^ n * t) :
    ∃ p', p.leftMultiply τ f = .ok p' ∧ p'.Near (W * V) (driftErr n t ε (k + 1)) := by
  have h := mulErr_drift hb hη
  obtain ⟨p', h1, h2⟩ := Unitary.leftMultiply_near (Nat.two_pow_pos n) hb.tau hp hf hV hW (h.trans hb.lim)
  exact ⟨p', h1, h2.mono h⟩

theorem rightMul_drift (hb : Budget n τ t ε (k + 1)) (hV : V ∈ unitaryGroup (Fin (2 ^ n)) ℂ)
    (hp : p.Near V (driftErr n t ε k)) {f : Unitary} {W : Matrix (Fin (2 ^ n)) (Fin (2 ^ n)) ℂ}
    (hW : W ∈ unitaryGroup (Fin (2 ^ n)) ℂ) {η : ℝ} (hf : f.Near W η) (hη : η ≤ ε + 9 * 2 ^ n * t) :
    ∃ p', p.rightMultiply τ f = .ok p' ∧ p'.Near (V * W) (driftErr n t ε (k + 1)) := by
  have h := mulErr_drift hb hη
  rw [mulErr_comm] at h
  obtain ⟨p', h1, h2⟩ := Unitary.rightMultiply_near (Nat.two_pow_pos n) hb.tau hp hf hV hW (h.trans hb.lim)
  exact ⟨p', h1, h2.mono h⟩

/-! ## The product from scratch -/

/-- The entries realise the gates one by one. -/
def RealisesAll (ε : ℝ) : List EntryVal → List Gate → Prop := List.Forall₂ fun e g => e.Realises g ε

theorem freshLoop_drift {es : List EntryVal} {gs : List Gate} (he : RealisesAll ε es gs) (hg : ∀ g ∈ gs, g.Ok n)
    (hb : Budget n τ t ε (k + gs.length)) (hV : V ∈ unitaryGroup (Fin (2 ^ n)) ℂ) (hp : p.Near V (driftErr n t ε k)) :
    ∃ q, freshLoop τ (2 ^ n) es p = .ok q ∧ q.Near (gateProduct n gs * V) (driftErr n t ε (k + gs.length)) := by
  induction he generalizing p V k with
  | nil => exact ⟨p, rfl, by simpa [gateProduct] using hp⟩
  | @cons e g es gs heg _ ih =>
    have hgo := hg g (by simp)
    have hb1 : Budget n τ t ε (k + 1) := hb.mono (by simp)
    obtain ⟨f, hf, hfn⟩ := full_drift hb1 hgo heg
    have h1 := two_pow_tau_nonneg n hb.t0
    obtain ⟨p', hp', hpn⟩ := leftMul_drift hb1 hV hp hgo.op_mem hfn (by linarith)
    have hk : k + (g :: gs).length = k + 1 + gs.length := by simp; omega
    rw [hk] at hb ⊢
    obtain ⟨q, hq, hqn⟩ := ih (fun x hx => hg x (by simp [hx])) hb (mul_mem hgo.op_mem hV) hpn
    refine ⟨q, ?_, ?_⟩
    · unfold freshLoop
      rw [hf, ok_bind, hp', ok_bind, hq]
    · rw [gateProduct, Matrix.mul_assoc]; exact hqn

theorem freshProduct_drift {es : List EntryVal} {gs : List Gate} (he : RealisesAll ε es gs) (hg : ∀ g ∈ gs, g.Ok n)
    (hb : Budget n τ t ε gs.length) :
    ∃ q, freshProduct τ (2 ^ n) es = .ok q ∧ q.Near (gateProduct n gs) (driftErr n t ε gs.length) := by
  obtain ⟨p0, h1, h2⟩ := Unitary.identity_near (d := 2 ^ n) (Nat.two_pow_pos n) hb.tau hb.tau1 none
  obtain ⟨q, h3, h4⟩ := freshLoop_drift (k := 0) he hg (by simpa using hb) (one_mem _)
    (h2.mono (driftErr_nonneg hb.t0 hb.eps))
  refine ⟨q, ?_, by simpa using h4⟩
  unfold freshProduct
  have : Unitary.new τ (2 ^ n) = .ok p0 := by rw [← h1]; rfl
  rw [this, ok_bind, h3]

end

end Stoq
