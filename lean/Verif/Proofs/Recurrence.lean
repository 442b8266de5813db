import Verif.Proofs.Trotter
import Mathlib.Topology.MetricSpace.Cauchy
import Mathlib.Topology.Algebra.Module.FiniteDimension

/-! # Products of unitary matrices come back -/

namespace Stoq

open Matrix
open scoped Matrix.Norms.L2Operator

variable {d : ℕ}

theorem norm_le_one_of_unitary {U : Matrix (Fin d) (Fin d) ℂ} (h : U ∈ unitaryGroup (Fin d) ℂ) : ‖U‖ ≤ 1 := by
  rcases isEmpty_or_nonempty (Fin d) with he | he
  · rw [Subsingleton.elim U 0, norm_zero]; exact zero_le_one
  · exact (CStarRing.norm_of_mem_unitary h).le

theorem compact_unit_ball : IsCompact (Metric.closedBall (0 : Matrix (Fin d) (Fin d) ℂ) 1) := by
  have : ProperSpace (Matrix (Fin d) (Fin d) ℂ) := FiniteDimensional.proper ℂ _
  exact isCompact_closedBall 0 1

theorem norm_unitary_mul {U : Matrix (Fin d) (Fin d) ℂ} (h : U ∈ unitaryGroup (Fin d) ℂ)
    (A : Matrix (Fin d) (Fin d) ℂ) : ‖U * A‖ = ‖A‖ := CStarRing.norm_mem_unitary_mul A h

theorem norm_mul_unitary {U : Matrix (Fin d) (Fin d) ℂ} (h : U ∈ unitaryGroup (Fin d) ℂ)
    (A : Matrix (Fin d) (Fin d) ℂ) : ‖A * U‖ = ‖A‖ := CStarRing.norm_mul_mem_unitary A h

/-- Some power of a unitary matrix is close to the identity. -/
theorem exists_pow_near_one {U : Matrix (Fin d) (Fin d) ℂ} (h : U ∈ unitaryGroup (Fin d) ℂ) {ε : ℝ} (hε : 0 < ε) :
    ∃ k, ‖U ^ (k + 1) - 1‖ < ε := by
  obtain ⟨a, -, φ, hφ, hlim⟩ := compact_unit_ball.tendsto_subseq (x := fun k => U ^ k) fun k => by
    rw [mem_closedBall_zero_iff]
    exact norm_le_one_of_unitary (pow_mem h k)
  obtain ⟨N, hN⟩ := Metric.cauchySeq_iff.mp hlim.cauchySeq ε hε
  have h1 := hN (N + 1) (by omega) N le_rfl
  have hlt : φ N < φ (N + 1) := hφ (by omega)
  obtain ⟨k, hk⟩ := Nat.exists_eq_add_of_lt hlt
  refine ⟨k, ?_⟩
  rw [dist_eq_norm] at h1
  simp only [Function.comp] at h1
  rw [hk, add_assoc, pow_add, ← mul_sub_one, norm_unitary_mul (pow_mem h _)] at h1
  exact h1

/-- For a set of unitary matrices that is closed under products there are finitely many of its elements such that from
every element of the set one of them leads close to a given element. -/
theorem exists_finite_words {S : Set (Matrix (Fin d) (Fin d) ℂ)} (hS : ∀ U ∈ S, U ∈ unitaryGroup (Fin d) ℂ)
    (hmul : ∀ U ∈ S, ∀ V ∈ S, U * V ∈ S) (hone : 1 ∈ S) {W : Matrix (Fin d) (Fin d) ℂ} (hW : W ∈ S) {ε : ℝ} (hε : 0 < ε) :
    ∃ F : Set (Matrix (Fin d) (Fin d) ℂ), F.Finite ∧ F ⊆ S ∧ ∀ U ∈ S, ∃ V ∈ F, ‖V * U - W‖ < ε := by
  have htb : TotallyBounded S := compact_unit_ball.totallyBounded.subset fun U hU => by
    rw [mem_closedBall_zero_iff]
    exact norm_le_one_of_unitary (hS U hU)
  obtain ⟨t, ht1, ht2, ht3⟩ := Metric.finite_approx_of_totallyBounded htb (ε / 2) (by positivity)
  have hinv : ∀ C ∈ S, ∃ V ∈ S, ‖V * C - W‖ < ε / 2 := by
    intro C hC
    obtain ⟨k, hk⟩ := exists_pow_near_one (hS C hC) (ε := ε / 2) (by positivity)
    have hpow : ∀ j, C ^ j ∈ S := by
      intro j
      induction j with
      | zero => rw [pow_zero]; exact hone
      | succ j ih => rw [pow_succ]; exact hmul _ ih _ hC
    refine ⟨W * C ^ k, hmul _ hW _ (hpow k), ?_⟩
    rw [Matrix.mul_assoc, ← pow_succ, ← mul_sub_one, norm_unitary_mul (hS W hW)]
    exact hk
  choose! f hf using hinv
  refine ⟨f '' t, ht2.image f, ?_, fun U hU => ?_⟩
  · rintro _ ⟨C, hC, rfl⟩
    exact (hf C (ht1 hC)).1
  · obtain ⟨C, hC, hUC⟩ := Set.mem_iUnion₂.mp (ht3 hU)
    refine ⟨f C, ⟨C, hC, rfl⟩, ?_⟩
    rw [Metric.mem_ball, dist_eq_norm] at hUC
    obtain ⟨h1, h2⟩ := hf C (ht1 hC)
    calc ‖f C * U - W‖ = ‖f C * (U - C) + (f C * C - W)‖ := by
          congr 1; rw [Matrix.mul_sub]; abel
      _ ≤ ‖f C * (U - C)‖ + ‖f C * C - W‖ := norm_add_le _ _
      _ < ε / 2 + ε / 2 := by rw [norm_unitary_mul (hS _ h1)]; exact add_lt_add hUC h2
      _ = ε := add_halves ε

end Stoq
