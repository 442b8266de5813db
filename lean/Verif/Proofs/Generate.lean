import Verif.Proofs.Recurrence
import Verif.Proofs.Evolution
import Verif.Proofs.Gms
import Mathlib.Analysis.CStarAlgebra.Unitary.Connected
import Mathlib.Analysis.Normed.Module.Connected
import Mathlib.Topology.Separation.Connected
import Mathlib.Analysis.Matrix.Spectrum

/-! # What the products of some unitary matrices approximate -/

namespace Stoq

open Matrix Complex
open scoped Matrix.Norms.L2Operator

variable {d : ℕ}

/-- The unitary matrices that products of elements of `S` approximate up to a phase. -/
def Approximated (S : Set (Matrix (Fin d) (Fin d) ℂ)) (U : Matrix (Fin d) (Fin d) ℂ) : Prop :=
  U ∈ unitaryGroup (Fin d) ℂ ∧ ∀ ε > 0, ∃ l : List (Matrix (Fin d) (Fin d) ℂ), (∀ A ∈ l, A ∈ S) ∧
    ∃ c : ℂ, ‖c‖ = 1 ∧ ‖l.prod - c • U‖ ≤ ε

/-- The Hermitian matrices whose evolutions are approximated. -/
def Generating (S : Set (Matrix (Fin d) (Fin d) ℂ)) (A : Matrix (Fin d) (Fin d) ℂ) : Prop :=
  A.IsHermitian ∧ ∀ t : ℝ, Approximated S (evolution A t)

variable {S : Set (Matrix (Fin d) (Fin d) ℂ)} {U V A B P Q : Matrix (Fin d) (Fin d) ℂ}

theorem smul_unitary {c : ℂ} (hc : ‖c‖ = 1) (hU : U ∈ unitaryGroup (Fin d) ℂ) : c • U ∈ unitaryGroup (Fin d) ℂ := by
  rw [mem_unitaryGroup_iff] at *
  rw [star_smul, smul_mul_smul_comm, hU, Complex.star_def, Complex.mul_conj, Complex.normSq_eq_norm_sq, hc]
  simp

theorem norm_smul_phase {c : ℂ} (hc : ‖c‖ = 1) (A : Matrix (Fin d) (Fin d) ℂ) : ‖c • A‖ = ‖A‖ := by
  rw [norm_smul, hc, one_mul]

namespace Approximated

theorem of_mem (hS : ∀ A ∈ S, A ∈ unitaryGroup (Fin d) ℂ) (h : U ∈ S) : Approximated S U :=
  ⟨hS U h, fun ε hε => ⟨[U], by simpa using h, 1, by simp, by simpa using hε.le⟩⟩

theorem smul {c : ℂ} (hc : ‖c‖ = 1) (h : Approximated S U) : Approximated S (c • U) := by
  refine ⟨smul_unitary hc h.1, fun ε hε => ?_⟩
  obtain ⟨l, hl, b, hb, hle⟩ := h.2 ε hε
  have hc0 : c ≠ 0 := by rw [← norm_ne_zero_iff, hc]; exact one_ne_zero
  refine ⟨l, hl, b * c⁻¹, by simp [hb, hc], ?_⟩
  rwa [smul_smul, mul_assoc, inv_mul_cancel₀ hc0, mul_one]

theorem one : Approximated S (1 : Matrix (Fin d) (Fin d) ℂ) :=
  ⟨one_mem _, fun ε hε => ⟨[], by simp, 1, by simp, by simpa using hε.le⟩⟩

theorem mul (hU : Approximated S U) (hV : Approximated S V) : Approximated S (U * V) := by
  refine ⟨mul_mem hU.1 hV.1, fun ε hε => ?_⟩
  set η := min (ε / 3) 1 with hη
  have h0 : 0 < η := lt_min (by positivity) one_pos
  have h1 : η ≤ ε / 3 := min_le_left _ _
  have h2 : η ≤ 1 := min_le_right _ _
  obtain ⟨l, hl, b, hb, hle⟩ := hU.2 η h0
  obtain ⟨k, hk, c, hc, hke⟩ := hV.2 η h0
  refine ⟨l ++ k, fun A hA => (List.mem_append.mp hA).elim (hl A) (hk A), b * c, by simp [hb, hc], ?_⟩
  have e : (l ++ k).prod - (b * c) • (U * V) = (l.prod - b • U) * (k.prod - c • V) + (l.prod - b • U) * (c • V) +
      (b • U) * (k.prod - c • V) := by
    rw [List.prod_append, ← smul_mul_smul_comm]
    noncomm_ring
  have n1 : ‖c • V‖ ≤ 1 := norm_le_one_of_unitary (smul_unitary hc hV.1)
  have n2 : ‖b • U‖ ≤ 1 := norm_le_one_of_unitary (smul_unitary hb hU.1)
  rw [e]
  calc _ ≤ ‖(l.prod - b • U) * (k.prod - c • V)‖ + ‖(l.prod - b • U) * (c • V)‖ + ‖(b • U) * (k.prod - c • V)‖ :=
        norm_add₃_le
    _ ≤ η * 1 + η * 1 + 1 * η := by
        gcongr
        · exact (norm_mul_le _ _).trans (mul_le_mul hle (hke.trans h2) (norm_nonneg _) h0.le)
        · exact (norm_mul_le _ _).trans (mul_le_mul hle n1 (norm_nonneg _) h0.le)
        · exact (norm_mul_le _ _).trans (mul_le_mul n2 hke (norm_nonneg _) zero_le_one)
    _ ≤ ε := by linarith

theorem pow (hU : Approximated S U) (k : ℕ) : Approximated S (U ^ k) := by
  induction k with
  | zero => rw [pow_zero]; exact one
  | succ k ih => rw [pow_succ]; exact ih.mul hU

/-- Limits of approximated matrices are approximated. -/
theorem closed (hU : U ∈ unitaryGroup (Fin d) ℂ) (h : ∀ ε > 0, ∃ V, Approximated S V ∧ ‖V - U‖ ≤ ε) :
    Approximated S U := by
  refine ⟨hU, fun ε hε => ?_⟩
  obtain ⟨V, hV, h1⟩ := h (ε / 2) (by positivity)
  obtain ⟨l, hl, c, hc, h2⟩ := hV.2 (ε / 2) (by positivity)
  refine ⟨l, hl, c, hc, ?_⟩
  calc ‖l.prod - c • U‖ = ‖(l.prod - c • V) + c • (V - U)‖ := by congr 1; module
    _ ≤ ‖l.prod - c • V‖ + ‖c • (V - U)‖ := norm_add_le _ _
    _ ≤ ε / 2 + ε / 2 := by rw [norm_smul_phase hc]; gcongr
    _ = ε := add_halves ε

theorem ct (hU : Approximated S U) : Approximated S Uᴴ := by
  have hct : Uᴴ ∈ unitaryGroup (Fin d) ℂ := Unitary.star_mem hU.1
  refine closed hct fun ε hε => ?_
  obtain ⟨k, hk⟩ := exists_pow_near_one hU.1 hε
  refine ⟨U ^ k, hU.pow k, ?_⟩
  have h1 : Uᴴ * U = 1 := mem_unitaryGroup_iff'.mp hU.1
  have e : U ^ k - Uᴴ = Uᴴ * (U ^ (k + 1) - 1) := by
    rw [pow_succ', Matrix.mul_sub, ← Matrix.mul_assoc, h1, Matrix.one_mul, Matrix.mul_one]
  rw [e, norm_unitary_mul hct]
  exact hk.le

end Approximated

namespace Generating

theorem smul (h : Generating S A) (x : ℝ) : Generating S ((x : ℂ) • A) := by
  refine ⟨?_, fun t => ?_⟩
  · unfold IsHermitian
    rw [conjTranspose_smul, h.1.eq]
    simp
  · have : evolution ((x : ℂ) • A) t = evolution A (t * x) := by
      unfold evolution
      rw [smul_smul]
      congr 2
      push_cast; ring
    rw [this]
    exact h.2 _

theorem neg (h : Generating S A) : Generating S (-A) := by
  have := h.smul (-1)
  simpa using this

theorem one : Generating S (1 : Matrix (Fin d) (Fin d) ℂ) := by
  refine ⟨isHermitian_one, fun t => ?_⟩
  have e : evolution (1 : Matrix (Fin d) (Fin d) ℂ) t = Complex.exp (I * t) • (1 : Matrix (Fin d) (Fin d) ℂ) := by
    unfold evolution
    rw [Gate.exp_idempotent (one_mul 1)]
    module
  rw [e]
  exact Approximated.one.smul (by rw [mul_comm]; exact Complex.norm_exp_ofReal_mul_I t)

theorem add [NeZero d] (hA : Generating S A) (hB : Generating S B) : Generating S (A + B) := by
  have hh : (A + B).IsHermitian := hA.1.add hB.1
  refine ⟨hh, fun t => Approximated.closed (evolution_unitary hh t) fun ε hε => ?_⟩
  set x : ℝ := ‖(I * t) • A‖ + ‖(I * t) • B‖ with hx
  have hx0 : 0 ≤ x := by positivity
  obtain ⟨N, hN⟩ := exists_nat_gt (x ^ 2 * Real.exp x / ε)
  set M : ℕ := N + 1 with hM
  have hM0 : (0 : ℝ) < M := by positivity
  have hM1 : (1 : ℝ) ≤ M := by rw [hM]; push_cast; linarith [N.cast_nonneg (α := ℝ)]
  have hMc : (M : ℂ) ≠ 0 := by exact_mod_cast hM0.ne'
  refine ⟨(evolution A (t / M) * evolution B (t / M)) ^ M, ((hA.2 _).mul (hB.2 _)).pow M, ?_⟩
  have e1 : evolution (A + B) t = evolution (A + B) (t / M) ^ M := by
    unfold evolution
    rw [← Matrix.exp_nsmul, ← Nat.cast_smul_eq_nsmul ℂ, smul_smul]
    congr 2
    push_cast
    field_simp
  have e2 : evolution A (t / M) * evolution B (t / M) =
      (([(I * ↑(t / M)) • A, (I * ↑(t / M)) • B] : List _).map NormedSpace.exp).prod := by simp [evolution]
  have e3 : evolution (A + B) (t / M) =
      NormedSpace.exp ([(I * ↑(t / M)) • A, (I * ↑(t / M)) • B] : List (Matrix (Fin d) (Fin d) ℂ)).sum := by
    simp [evolution, smul_add]
  have hn : ∀ C : Matrix (Fin d) (Fin d) ℂ, ‖(I * ↑(t / M) : ℂ) • C‖ = ‖(I * t : ℂ) • C‖ / M := by
    intro C
    rw [norm_smul, norm_smul]
    simp
    ring
  have hs : (([(I * ↑(t / M)) • A, (I * ↑(t / M)) • B] : List (Matrix (Fin d) (Fin d) ℂ)).map norm).sum = x / M := by
    simp only [List.map_cons, List.map_nil, List.sum_cons, List.sum_nil, hn]
    rw [hx]; ring
  have h1 := norm_prod_exp_sub_exp_le ([(I * ↑(t / M)) • A, (I * ↑(t / M)) • B] : List (Matrix (Fin d) (Fin d) ℂ))
  rw [← e2, ← e3, hs] at h1
  have hu : evolution A (t / M) * evolution B (t / M) ∈ unitaryGroup (Fin d) ℂ :=
    mul_mem (evolution_unitary hA.1 _) (evolution_unitary hB.1 _)
  have h2 := norm_prod_sub_pow_le (l := List.replicate M (evolution A (t / M) * evolution B (t / M)))
    (B := evolution (A + B) (t / M)) (fun C hC => by rw [List.eq_of_mem_replicate hC]; exact ⟨hu, h1⟩)
    (evolution_unitary hh _)
  rw [List.prod_replicate, List.length_replicate, ← e1] at h2
  refine h2.trans ?_
  have h3 : Real.exp (x / M) ≤ Real.exp x := Real.exp_le_exp.mpr (div_le_self hx0 hM1)
  calc (M : ℝ) * ((x / M) ^ 2 * Real.exp (x / M)) ≤ M * ((x / M) ^ 2 * Real.exp x) := by gcongr
    _ = x ^ 2 * Real.exp x / M := by field_simp
    _ ≤ ε := by
      rw [div_le_iff₀ hM0]
      rw [div_lt_iff₀ hε] at hN
      have : (N : ℝ) ≤ M := by rw [hM]; push_cast; linarith
      nlinarith

theorem sum [NeZero d] {ι : Type} (s : Finset ι) {f : ι → Matrix (Fin d) (Fin d) ℂ} (h : ∀ i ∈ s, Generating S (f i)) :
    Generating S (∑ i ∈ s, f i) := by
  classical
  induction s using Finset.induction_on with
  | empty =>
    rw [Finset.sum_empty]
    have := (one (S := S)).smul 0
    simpa using this
  | insert i s hi ih =>
    rw [Finset.sum_insert hi]
    exact (h i (by simp)).add (ih fun j hj => h j (by simp [hj]))

theorem conj (hA : Generating S A) (hV : Approximated S V) : Generating S (V * A * Vᴴ) := by
  have h1 : V * Vᴴ = 1 := mem_unitaryGroup_iff.mp hV.1
  have hi : V⁻¹ = Vᴴ := inv_eq_right_inv h1
  have hu : IsUnit V := (Units.mk V Vᴴ h1 (mem_unitaryGroup_iff'.mp hV.1)).isUnit
  refine ⟨isHermitian_mul_mul_conjTranspose V hA.1, fun t => ?_⟩
  have e : evolution (V * A * Vᴴ) t = V * evolution A t * Vᴴ := by
    unfold evolution
    rw [← hi, ← exp_conj _ _ hu, mul_smul_comm, smul_mul_assoc]
  rw [e]
  exact (hV.mul (hA.2 t)).mul hV.ct

/-- Anticommuting generators. -/
theorem anticommute (hP : Generating S P) (hQ : Generating S Q) (hQ2 : Q * Q = 1) (h : Q * P = -(P * Q)) :
    Generating S (I • (Q * P)) := by
  have := hP.conj (hQ.2 (Real.pi / 4))
  have e1 : evolution Q (Real.pi / 4) = (Real.cos (Real.pi / 4) : ℂ) • 1 + (I * (Real.sin (Real.pi / 4) : ℂ)) • Q := by
    have := Gate.rot_eq_exp hQ2 (-(Real.pi / 2))
    unfold evolution
    rw [show (I * ((Real.pi / 4 : ℝ) : ℂ)) = -I * ((-(Real.pi / 2) / 2 : ℝ) : ℂ) by push_cast; ring, ← this, Gate.rot,
      show -(Real.pi / 2) / 2 = -(Real.pi / 4) by ring, Real.cos_neg, Real.sin_neg]
    push_cast
    module
  have e2 : (evolution Q (Real.pi / 4))ᴴ =
      (Real.cos (Real.pi / 4) : ℂ) • 1 - (I * (Real.sin (Real.pi / 4) : ℂ)) • Q := by
    rw [e1, conjTranspose_add, conjTranspose_smul, conjTranspose_smul, conjTranspose_one, hQ.1.eq]
    simp only [star_mul', Complex.star_def, conj_ofReal, conj_I]
    module
  rw [e2, e1] at this
  convert this using 1
  rw [Real.cos_pi_div_four, Real.sin_pi_div_four]
  set s : ℂ := ((√2 / 2 : ℝ) : ℂ) with hs
  have hss : s * s = 1 / 2 := by
    rw [hs, ← Complex.ofReal_mul, show √2 / 2 * (√2 / 2) = (√2 * √2) / 4 by ring, Real.mul_self_sqrt (by norm_num)]
    norm_num
  have hPQ : P * Q = -(Q * P) := by rw [h, neg_neg]
  have hQPQ : Q * P * Q = -P := by rw [Matrix.mul_assoc, hPQ, Matrix.mul_neg, ← Matrix.mul_assoc, hQ2, Matrix.one_mul]
  simp only [Matrix.add_mul, Matrix.mul_sub, smul_mul_assoc, mul_smul_comm, Matrix.one_mul, Matrix.mul_one, hPQ, hQPQ,
    smul_neg]
  have h1 : s • (s • P + (I * s) • (Q * P)) - (I * s) • (-(s • (Q * P)) + -((I * s) • P)) =
      (s * s + I * I * (s * s)) • P + (I * (s * s) + I * (s * s)) • (Q * P) := by module
  rw [smul_add] at *
  rw [h1, hss, I_mul_I]
  module

end Generating

/-- Every unitary matrix is an evolution, up to a phase. -/
theorem exists_evolution (hU : U ∈ unitaryGroup (Fin d) ℂ) :
    ∃ (c : ℂ) (H : Matrix (Fin d) (Fin d) ℂ), ‖c‖ = 1 ∧ H.IsHermitian ∧ U = c • evolution H 1 := by
  have hfin : (spectrum ℂ U).Finite := U.finite_spectrum
  obtain ⟨z, hz, hz2⟩ : ∃ z : ℂ, ‖z‖ = 1 ∧ -z ∉ spectrum ℂ U := by
    by_contra hcon
    push Not at hcon
    have hsub : (fun z : ℂ => -z) '' Metric.sphere (0 : ℂ) 1 ⊆ spectrum ℂ U := by
      rintro _ ⟨z, hz, rfl⟩
      exact hcon z (by simpa using hz)
    have hinf : (Metric.sphere (0 : ℂ) 1).Infinite := by
      refine (isPreconnected_sphere (by rw [Complex.rank_real_complex]; exact Cardinal.one_lt_two) 0 1).infinite_of_nontrivial
        ⟨1, by simp, -1, by simp, ?_⟩
      norm_num [Complex.ext_iff]
    exact hinf (Set.Finite.of_finite_image (hfin.subset hsub) neg_injective.injOn)
  have hz0 : z ≠ 0 := by rw [← norm_ne_zero_iff, hz]; exact one_ne_zero
  set W : Matrix (Fin d) (Fin d) ℂ := z⁻¹ • U with hW
  have hWu : W ∈ unitaryGroup (Fin d) ℂ := smul_unitary (by simp [hz]) hU
  have hlt : ‖W - 1‖ < 2 := by
    rw [Unitary.norm_sub_one_lt_two_iff hWu]
    intro h
    apply hz2
    have := (spectrum.smul_mem_smul_iff (r := Units.mk0 z hz0) (a := W) (s := (-1 : ℂ))).mpr h
    rw [hW] at this
    simpa [Units.smul_def, smul_smul, hz0] using this
  have h := expUnitary_argSelfAdjoint (u := ⟨W, hWu⟩) hlt
  refine ⟨z, (Unitary.argSelfAdjoint ⟨W, hWu⟩).1, hz, (Unitary.argSelfAdjoint ⟨W, hWu⟩).2, ?_⟩
  have h2 := congrArg Subtype.val h
  rw [selfAdjoint.expUnitary_coe] at h2
  unfold evolution
  rw [ofReal_one, mul_one, h2]
  change U = z • W
  rw [hW, smul_smul, mul_inv_cancel₀ hz0, one_smul]

/-- If every Hermitian matrix is a generator, every unitary matrix is approximated. -/
theorem approximated_all (h : ∀ A : Matrix (Fin d) (Fin d) ℂ, A.IsHermitian → Generating S A)
    (hU : U ∈ unitaryGroup (Fin d) ℂ) : Approximated S U := by
  obtain ⟨c, H, hc, hH, rfl⟩ := exists_evolution hU
  exact ((h H hH).2 1).smul hc

end Stoq
