import Verif.Proofs.QdriftMean
import Verif.Props.Qdrift

/-!
# C85: the distance between a QDRIFT sequence and the time evolution

C71 is about means of observables.  Here the number that `distance_from` computes for the product of one random sequence
is bounded: in the mean, and with high probability.
-/

namespace Stoq

open World Matrix MeasureTheory
open scoped Matrix.Norms.L2Operator

variable {n : ℕ} {Ms : List (Matrix (Fin (2 ^ n)) (Fin (2 ^ n)) ℂ)} {H : Hamiltonian}

/-- With the real random numbers `ω` the code makes a sequence of `N` gates, and `distance_from` returns `x` for its
product and the time evolution operator. -/
def QdriftDistance (H : Hamiltonian) (t : ℝ) (N : ℤ) (w : World) (ω : ℕ → Set.Ico (0 : ℝ) 1) (x : ℝ) : Prop :=
  ∃ s w' p U, H.getQdriftSequence 0 t N (w.withReals ω) = (.ok s, w') ∧ (Seq.product 0 s w').1 = .ok p ∧
    H.getTimeEvolutionOperator 0 t = .ok U ∧ p.distanceFrom 0 U = .ok x

/-- C85: the distance between the product of the sequence and the time evolution operator is a measurable function `D` of
the random numbers that are used, with values in `[0, 1]`, the same for all histories of the session.  With `L` the time
multiplied by the sum of the largest absolute eigenvalues of the terms, its mean is at most `L² / N * exp (L / N)`, and
at most `t² / (2 N)` times the norm of the variance, plus `L³ / (3 N²) * exp (L / N)`; the probability that it is at least
`ε` is at most its mean divided by `ε`. -/
theorem C85_qdrift_distance (hn : 1 ≤ n) (hH : H.Of Ms) (t : ℝ) {N : ℕ} (hN : 1 ≤ N) {L : ℝ}
    (hL : L = |t| * (Ms.map maxAbsEigenvalue).sum) :
    ∃ D : (ℕ → Set.Ico (0 : ℝ) 1) → ℝ, Measurable D ∧ (∀ ω, 0 ≤ D ω ∧ D ω ≤ 1) ∧
      (∀ {c : Client} {Cs : List Compiler}, Session 0 c Cs → (∀ x ∈ c.world.entries, x.toVal.Exact) →
        ∀ ω, QdriftDistance H t N c.world ω (D fun j => ω (c.world.rng.upos + j))) ∧
      ∫ ω, D ω ∂uniformTape ≤ L ^ 2 / N * Real.exp (L / N) ∧
      ∫ ω, D ω ∂uniformTape ≤ t ^ 2 / (2 * N) * ‖qdriftVariance Ms‖ + L ^ 3 / (3 * N ^ 2) * Real.exp (L / N) ∧
      ∀ ε, 0 < ε → uniformTape {ω | ε ≤ D ω} ≤ ENNReal.ofReal ((∫ ω, D ω ∂uniformTape) / ε) := by
  obtain ⟨p, shot, x, hm, hmean, hp0, hp1, hxct, hxu, hr, hVe, hvar, hcode⟩ := qdrift_draws hn hH t hN hL
  obtain ⟨g1, g2⟩ := hH.total
  obtain ⟨U, g3, g4, g5, -⟩ := C29_evolution (by positivity) g1 g2 t ""
  have hNpos : (0 : ℝ) < N := by exact_mod_cast hN
  have hpos : 0 < 2 ^ n := by positivity
  have hT : evolution Ms.sum t ∈ unitaryGroup (Fin (2 ^ n)) ℂ := evolution_unitary g2 t
  have hV : evolution Ms.sum (t / N) ∈ unitaryGroup (Fin (2 ^ n)) ℂ := evolution_unitary g2 _
  obtain ⟨k1, k2, k3⟩ := mean_overlap_ge hpos hxu hm hmean N hT
  have hpow : ‖(∑ i, p i • NormedSpace.exp (x i)) ^ N - evolution Ms.sum t‖ ≤
      N * ‖∑ i, p i • NormedSpace.exp (x i) - evolution Ms.sum (t / N)‖ := by
    have h2 := norm_pow_sub_pow_le (norm_mean_le hxu hp0 hp1) (norm_unitary_le hV) N
    rwa [evolution_pow, mul_div_cancel₀ _ hNpos.ne'] at h2
  have hsmall : ‖(∑ i, p i • NormedSpace.exp (x i)) ^ N - evolution Ms.sum t‖ ≤ L ^ 2 / N * Real.exp (L / N) := by
    have h1 := norm_mean_exp_sub_le (x := x) hp0 hp1 hr
    rw [hVe] at h1
    refine hpow.trans ((mul_le_mul_of_nonneg_left h1 hNpos.le).trans (le_of_eq ?_))
    field_simp
  have hsmall2 : ‖(∑ i, p i • NormedSpace.exp (x i)) ^ N - evolution Ms.sum t‖ ≤
      t ^ 2 / (2 * N) * ‖qdriftVariance Ms‖ + L ^ 3 / (3 * N ^ 2) * Real.exp (L / N) := by
    have h1 := norm_mean_exp_sub_var_le (x := x) hp0 hp1 hr
    rw [hVe, hvar, norm_smul, norm_neg, Real.norm_of_nonneg (by positivity)] at h1
    refine hpow.trans ((mul_le_mul_of_nonneg_left h1 hNpos.le).trans (le_of_eq ?_))
    field_simp
  set D : (ℕ → Set.Ico (0 : ℝ) 1) → ℝ := fun ω => 1 - overlap (evolution Ms.sum t)
    (drawnProduct (fun i => NormedSpace.exp (x i)) N fun j => shot (ω j)) with hD
  have hD0 : ∀ ω, 0 ≤ D ω := fun ω => by
    have := overlap_le_one hT (drawnProduct_mem hxu N fun j => shot (ω j))
    simp only [hD]; linarith
  have hDm : Measurable D := measurable_const.sub k1
  have hDi : Integrable D uniformTape := (integrable_const 1).sub k2
  have hDint : ∀ β, ‖(∑ i, p i • NormedSpace.exp (x i)) ^ N - evolution Ms.sum t‖ ≤ β → ∫ ω, D ω ∂uniformTape ≤ β := by
    intro β hβ
    rw [hD, integral_sub (integrable_const 1) k2]
    simp only [integral_const, probReal_univ, smul_eq_mul, mul_one]
    linarith
  refine ⟨D, hDm, fun ω => ⟨hD0 ω, ?_⟩, fun {c Cs} hs hex ω => ?_, hDint _ hsmall, hDint _ hsmall2,
    fun ε hε => ?_⟩
  · have := overlap_nonneg (evolution Ms.sum t) (drawnProduct (fun i => NormedSpace.exp (x i)) N fun j => shot (ω j))
    simp only [hD]; linarith
  · obtain ⟨P, ⟨s, w', q, h1, h2, h3, h4⟩, h5⟩ := hcode hs hex ω
    refine ⟨s, w', q, U, h1, h2, g3, ?_⟩
    rw [Unitary.distanceFrom_eq h3 g4, h4.2.2]
    congr 1
    simp only [hD]
    rw [drawnProduct_eq, overlap_comm, overlap_congr g5 h5]
  · have h := mul_meas_ge_le_integral_of_nonneg (Filter.Eventually.of_forall hD0) hDi ε
    refine (ENNReal.le_ofReal_iff_toReal_le (measure_ne_top _ _) ?_).mpr ?_
    · exact div_nonneg (integral_nonneg hD0) hε.le
    · rw [le_div_iff₀ hε, mul_comm]
      exact h

/-- C85: whatever accuracy and probability are wanted, all large enough numbers of repetitions give them: QDRIFT
sequences converge to the time evolution in probability. -/
theorem C85_qdrift_in_probability (hn : 1 ≤ n) (hH : H.Of Ms) (t : ℝ) {ε η : ℝ} (hε : 0 < ε) (hη : 0 < η) :
    ∃ N₀ : ℕ, ∀ N : ℕ, N₀ ≤ N → ∀ {c : Client} {Cs : List Compiler}, Session 0 c Cs →
      (∀ x ∈ c.world.entries, x.toVal.Exact) →
      MeasurableSet {ω | ∃ x, QdriftDistance H t N c.world ω x ∧ x < ε} ∧
      1 - ENNReal.ofReal η ≤ uniformTape {ω | ∃ x, QdriftDistance H t N c.world ω x ∧ x < ε} := by
  obtain ⟨L, hL⟩ : ∃ L, L = |t| * (Ms.map maxAbsEigenvalue).sum := ⟨_, rfl⟩
  have hL0 : 0 ≤ L := hL ▸ mul_nonneg (abs_nonneg _) hH.lambda_pos.le
  obtain ⟨N₀, hN₀⟩ := exists_nat_gt (L ^ 2 * Real.exp L / (ε * η))
  refine ⟨N₀ + 1, fun N hN {c Cs} hs hex => ?_⟩
  have hN1 : 1 ≤ N := by omega
  have hNpos : (0 : ℝ) < N := by exact_mod_cast hN1
  obtain ⟨D, h1, h2, h3, h0, -, h4⟩ := C85_qdrift_distance hn hH t hN1 hL
  have hset : {ω | ∃ x, QdriftDistance H t N c.world ω x ∧ x < ε} =
      {ω : ℕ → Set.Ico (0 : ℝ) 1 | ε ≤ D fun j => ω (c.world.rng.upos + j)}ᶜ := by
    ext ω
    simp only [Set.mem_compl_iff, Set.mem_ofPred_eq, not_le]
    constructor
    · rintro ⟨x, ⟨s, w', p, U, e1, e2, e3, e4⟩, hx⟩
      obtain ⟨s', w'', p', U', f1, f2, f3, f4⟩ := h3 hs hex ω
      rw [e1] at f1; cases f1
      rw [e2] at f2; cases f2
      rw [e3] at f3; cases f3
      rw [e4] at f4; cases f4
      exact hx
    · intro hx
      exact ⟨_, h3 hs hex ω, hx⟩
  have hmp := measurePreserving_shift uniformUnit c.world.rng.upos
  have hm : MeasurableSet {ω : ℕ → Set.Ico (0 : ℝ) 1 | ε ≤ D ω} := measurableSet_le measurable_const h1
  have hm' : MeasurableSet {ω : ℕ → Set.Ico (0 : ℝ) 1 | ε ≤ D fun j => ω (c.world.rng.upos + j)} := hmp.measurable hm
  rw [hset]
  refine ⟨hm'.compl, ?_⟩
  rw [prob_compl_eq_one_sub hm']
  refine tsub_le_tsub_left ?_ 1
  have he : uniformTape {ω : ℕ → Set.Ico (0 : ℝ) 1 | ε ≤ D fun j => ω (c.world.rng.upos + j)} = uniformTape {ω | ε ≤ D ω} :=
    hmp.measure_preimage hm.nullMeasurableSet
  rw [he]
  refine (h4 ε hε).trans (ENNReal.ofReal_le_ofReal ?_)
  have k1 : L / N ≤ L := div_le_self hL0 (by exact_mod_cast hN1)
  have k2 : L ^ 2 * Real.exp L / (ε * η) < N := hN₀.trans (by exact_mod_cast (by omega : N₀ < N))
  rw [div_lt_iff₀ (by positivity)] at k2
  rw [div_le_iff₀ hε]
  refine h0.trans ?_
  calc L ^ 2 / N * Real.exp (L / N) ≤ L ^ 2 / N * Real.exp L := by gcongr
    _ = L ^ 2 * Real.exp L / N := by ring
    _ ≤ η * ε := by
      rw [div_le_iff₀ hNpos]
      linarith

/-- At the start of a session, for the Hamiltonian with the terms `X` and `Z`, the distance is less than 1/100 with
probability at least 99/100 if there are enough repetitions. -/
example (rng : Rng) (t : ℝ) : ∃ H, ∃ N₀ : ℕ, ∀ N : ℕ, N₀ ≤ N →
    1 - ENNReal.ofReal 0.01 ≤ uniformTape {ω | ∃ x, QdriftDistance H t N (Client.start rng).world ω x ∧ x < 0.01} := by
  obtain ⟨H, hH⟩ := example_xz
  obtain ⟨N₀, h⟩ := C85_qdrift_in_probability le_rfl hH t (by norm_num : (0 : ℝ) < 0.01) (by norm_num : (0 : ℝ) < 0.01)
  exact ⟨H, N₀, fun N hN => (h N hN (Session.start rng) (fun x hx => absurd hx List.not_mem_nil)).2⟩

end Stoq
