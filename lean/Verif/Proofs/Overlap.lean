import Mathlib.Analysis.CStarAlgebra.Matrix
import Mathlib.LinearAlgebra.Matrix.PosDef
import Mathlib.Analysis.Complex.Order
import Mathlib.Analysis.RCLike.Basic
import Verif.Spec.Basic

/-! Linear algebra of the normalised overlap. -/

namespace Stoq

open Matrix
open scoped ComplexOrder

variable {d : ℕ} {A B C : Matrix (Fin d) (Fin d) ℂ}

theorem SamePhase.refl (A : Matrix (Fin d) (Fin d) ℂ) : SamePhase A A := ⟨1, by simp, by simp⟩

theorem SamePhase.symm (h : SamePhase A B) : SamePhase B A := by
  obtain ⟨c, hc, rfl⟩ := h
  have h0 : c ≠ 0 := by intro h; simp [h] at hc
  exact ⟨c⁻¹, by simp [hc], by rw [smul_smul, inv_mul_cancel₀ h0, one_smul]⟩

theorem SamePhase.trans (h : SamePhase A B) (h' : SamePhase B C) : SamePhase A C := by
  obtain ⟨c, hc, rfl⟩ := h
  obtain ⟨e, he, rfl⟩ := h'
  exact ⟨c * e, by simp [hc, he], by rw [smul_smul]⟩

theorem SamePhase.mul {A' B' : Matrix (Fin d) (Fin d) ℂ} (h : SamePhase A B) (h' : SamePhase A' B') :
    SamePhase (A * A') (B * B') := by
  obtain ⟨c, hc, rfl⟩ := h
  obtain ⟨e, he, rfl⟩ := h'
  exact ⟨c * e, by simp [hc, he], by rw [smul_mul_smul_comm]⟩

theorem SamePhase.conjTranspose (h : SamePhase A B) : SamePhase Aᴴ Bᴴ := by
  obtain ⟨c, hc, rfl⟩ := h
  exact ⟨star c, by simp [hc], by rw [conjTranspose_smul]⟩

theorem overlap_nonneg (A B : Matrix (Fin d) (Fin d) ℂ) : 0 ≤ overlap A B := by
  unfold overlap; positivity

theorem norm_trace_le (h : A ∈ unitaryGroup (Fin d) ℂ) : ‖A.trace‖ ≤ d := by
  calc ‖A.trace‖ ≤ ∑ i, ‖A i i‖ := norm_sum_le _ _
    _ ≤ ∑ _i : Fin d, (1 : ℝ) := Finset.sum_le_sum fun i _ => entry_norm_bound_of_unitary h i i
    _ = d := by simp

theorem ct_mul_mem (hA : A ∈ unitaryGroup (Fin d) ℂ) (hB : B ∈ unitaryGroup (Fin d) ℂ) :
    Aᴴ * B ∈ unitaryGroup (Fin d) ℂ := by
  rw [← star_eq_conjTranspose]
  exact mul_mem (_root_.Unitary.star_mem hA) hB

theorem overlap_le_one (hA : A ∈ unitaryGroup (Fin d) ℂ) (hB : B ∈ unitaryGroup (Fin d) ℂ) :
    overlap A B ≤ 1 := by
  unfold overlap
  exact div_le_one_of_le₀ (norm_trace_le (ct_mul_mem hA hB)) (Nat.cast_nonneg _)

theorem overlap_comm (A B : Matrix (Fin d) (Fin d) ℂ) : overlap A B = overlap B A := by
  unfold overlap
  have : (Aᴴ * B).trace = star ((Bᴴ * A).trace) := by
    rw [← trace_conjTranspose, conjTranspose_mul, conjTranspose_conjTranspose]
  rw [this, norm_star]

theorem overlap_mul_left (hC : C ∈ unitaryGroup (Fin d) ℂ) : overlap (C * A) (C * B) = overlap A B := by
  unfold overlap
  have h : Cᴴ * C = 1 := mem_unitaryGroup_iff'.mp hC
  rw [conjTranspose_mul, Matrix.mul_assoc, ← Matrix.mul_assoc Cᴴ, h, Matrix.one_mul]

theorem overlap_mul_right (hC : C ∈ unitaryGroup (Fin d) ℂ) : overlap (A * C) (B * C) = overlap A B := by
  unfold overlap
  have h : C * Cᴴ = 1 := mem_unitaryGroup_iff.mp hC
  rw [conjTranspose_mul, ← Matrix.mul_assoc, trace_mul_comm, ← Matrix.mul_assoc, ← Matrix.mul_assoc, h,
    Matrix.one_mul]

theorem overlap_conjTranspose (A B : Matrix (Fin d) (Fin d) ℂ) : overlap Aᴴ Bᴴ = overlap A B := by
  unfold overlap
  have : (Aᴴᴴ * Bᴴ).trace = star ((Aᴴ * B).trace) := by
    rw [← trace_conjTranspose, conjTranspose_mul, trace_mul_comm, conjTranspose_conjTranspose]
  rw [this, norm_star]

theorem overlap_smul_left {c : ℂ} (hc : ‖c‖ = 1) : overlap (c • A) B = overlap A B := by
  unfold overlap
  rw [conjTranspose_smul, smul_mul_assoc, trace_smul, norm_smul, norm_star, hc, one_mul]

theorem overlap_smul_right {c : ℂ} (hc : ‖c‖ = 1) : overlap A (c • B) = overlap A B := by
  rw [overlap_comm, overlap_smul_left hc, overlap_comm]

theorem overlap_congr {A' B' : Matrix (Fin d) (Fin d) ℂ} (h : SamePhase A A') (h' : SamePhase B B') :
    overlap A B = overlap A' B' := by
  obtain ⟨c, hc, rfl⟩ := h
  obtain ⟨e, he, rfl⟩ := h'
  rw [overlap_smul_left hc, overlap_smul_right he]

/-- A unitary matrix with extremal trace is a phase times the identity. -/
theorem eq_smul_one_of_trace (hd : 0 < d) (h : A ∈ unitaryGroup (Fin d) ℂ) (ht : ‖A.trace‖ = d) :
    ∃ c : ℂ, ‖c‖ = 1 ∧ A = c • 1 := by
  have hd' : (d : ℂ) ≠ 0 := by exact_mod_cast hd.ne'
  have hdr : (d : ℝ) ≠ 0 := by exact_mod_cast hd.ne'
  set c : ℂ := A.trace / d with hc
  have hcn : ‖c‖ = 1 := by rw [hc, norm_div, ht]; simp [hdr]
  refine ⟨c, hcn, ?_⟩
  have htr : A.trace = c * d := by rw [hc]; field_simp
  have hcc : star c * c = 1 := by
    have : star c * c = (‖c‖ ^ 2 : ℝ) := by
      rw [Complex.star_def, mul_comm, Complex.mul_conj, Complex.normSq_eq_norm_sq]
    rw [this, hcn]; simp
  have hAA : Aᴴ * A = 1 := mem_unitaryGroup_iff'.mp h
  have key : ((A - c • (1 : Matrix (Fin d) (Fin d) ℂ))ᴴ * (A - c • 1)).trace = 0 := by
    rw [conjTranspose_sub, conjTranspose_smul, conjTranspose_one, sub_mul, mul_sub, mul_sub, hAA]
    simp only [trace_sub, smul_mul_assoc, mul_smul_comm, Matrix.one_mul, Matrix.mul_one, trace_smul,
      trace_one, Fintype.card_fin, trace_conjTranspose, htr, smul_eq_mul, star_mul']
    have : star (d : ℂ) = d := by simp
    rw [this]
    linear_combination (-(d : ℂ)) * hcc
  have := trace_conjTranspose_mul_self_eq_zero_iff.mp key
  exact sub_eq_zero.mp this

theorem overlap_self (hd : 0 < d) (hA : A ∈ unitaryGroup (Fin d) ℂ) : overlap A A = 1 := by
  unfold overlap
  have hdr : (d : ℝ) ≠ 0 := by exact_mod_cast hd.ne'
  have h : Aᴴ * A = 1 := mem_unitaryGroup_iff'.mp hA
  rw [h]; simp [hdr]

theorem overlap_eq_one_iff (hd : 0 < d) (hA : A ∈ unitaryGroup (Fin d) ℂ)
    (hB : B ∈ unitaryGroup (Fin d) ℂ) : overlap A B = 1 ↔ SamePhase A B := by
  constructor
  · intro h
    have hdr : (d : ℝ) ≠ 0 := by exact_mod_cast hd.ne'
    have ht : ‖(Aᴴ * B).trace‖ = d := by
      unfold overlap at h
      field_simp at h
      exact h
    obtain ⟨c, hc, h1⟩ := eq_smul_one_of_trace hd (ct_mul_mem hA hB) ht
    have h2 : A * (Aᴴ * B) = B := by
      rw [← Matrix.mul_assoc]
      have : A * Aᴴ = 1 := mem_unitaryGroup_iff.mp hA
      rw [this, Matrix.one_mul]
    rw [h1] at h2
    exact SamePhase.symm ⟨c, hc, by rw [← h2]; simp⟩
  · intro h
    rw [overlap_congr h (SamePhase.refl B), overlap_self hd hB]

end Stoq
