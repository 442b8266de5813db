import Verif.Proofs.Several
import Verif.Props.Measurable
import Verif.Spec.Steps

/-! # The expected number of steps -/

namespace Stoq

open MeasureTheory Compiler

/-- The mean of a number of steps, from its distribution. -/
theorem lintegral_steps_le {α : Type} [MeasurableSpace α] {μ : Measure α} {f : α → ENNReal} (hf : Measurable f)
    (hN : ∀ t, f t = ⊤ ∨ ∃ k : ℕ, f t = k) {δ : ℝ} {K : ℕ} (h0 : 0 < δ) (h1 : δ ≤ 1) (hK : 0 < K)
    (h : ∀ j : ℕ, μ {t | (j : ENNReal) < f t} ≤ ENNReal.ofReal ((1 - δ) ^ (j / K))) :
    ∫⁻ t, f t ∂μ ≤ ENNReal.ofReal (K / δ) := by
  have hset : ∀ j : ℕ, MeasurableSet {t | (j : ENNReal) < f t} := fun j => measurableSet_lt measurable_const hf
  have hsum : ∀ t, f t = ∑' j : ℕ, {t | (j : ENNReal) < f t}.indicator (fun _ => (1 : ENNReal)) t := by
    intro t
    rcases hN t with e | ⟨k, e⟩
    · rw [e]
      have : (fun j : ℕ => {t | (j : ENNReal) < f t}.indicator (fun _ => (1 : ENNReal)) t) = fun _ => 1 := by
        funext j
        rw [Set.indicator_of_mem]
        simp [e]
      rw [this, ENNReal.tsum_const_eq_top_of_ne_zero one_ne_zero]
    · rw [tsum_eq_sum (s := Finset.range k)]
      · rw [Finset.sum_congr rfl (g := fun _ => (1 : ENNReal))]
        · simp [e]
        · intro j hj
          rw [Set.indicator_of_mem]
          simpa [e] using hj
      · intro j hj
        rw [Set.indicator_of_notMem]
        simpa [e] using hj
  calc ∫⁻ t, f t ∂μ = ∫⁻ t, ∑' j : ℕ, {t | (j : ENNReal) < f t}.indicator (fun _ => (1 : ENNReal)) t ∂μ :=
        lintegral_congr hsum
    _ = ∑' j : ℕ, μ {t | (j : ENNReal) < f t} := by
        rw [lintegral_tsum fun j => (measurable_const.indicator (hset j)).aemeasurable]
        refine tsum_congr fun j => ?_
        rw [lintegral_indicator (hset j), setLIntegral_one]
    _ ≤ ∑' j : ℕ, ENNReal.ofReal (1 - δ) ^ (j / K) := by
        refine ENNReal.tsum_le_tsum fun j => (h j).trans (le_of_eq ?_)
        rw [ENNReal.ofReal_pow (by linarith)]
    _ = ∑' x : ℕ × Fin K, ENNReal.ofReal (1 - δ) ^ x.1 := by
        have : NeZero K := ⟨hK.ne'⟩
        rw [← (Nat.divModEquiv K).tsum_eq]
        rfl
    _ = K * (1 - ENNReal.ofReal (1 - δ))⁻¹ := by
        rw [ENNReal.tsum_prod (f := fun (q : ℕ) (_ : Fin K) => ENNReal.ofReal (1 - δ) ^ q)]
        simp only [tsum_fintype, Finset.sum_const, Finset.card_univ, Fintype.card_fin, nsmul_eq_mul]
        rw [ENNReal.tsum_mul_left, ENNReal.tsum_geometric]
    _ = ENNReal.ofReal (K / δ) := by
        rw [← ENNReal.ofReal_one, ← ENNReal.ofReal_sub _ (by linarith), sub_sub_cancel, div_eq_mul_inv,
          ENNReal.ofReal_mul (by positivity), ENNReal.ofReal_natCast, ENNReal.ofReal_inv_of_pos h0]

namespace Metropolis

variable {n : ℕ} {T : Matrix (Fin (2 ^ n)) (Fin (2 ^ n)) ℂ} {threshold : Option ℝ} {rate cap : ℝ}
  {prop : List EntryVal → PyM Rng (List EntryVal)}

/-- A walk that has reached its goal after at most `j` steps does not depend on the limit. -/
theorem run_limit {j : ℕ} {st : State} {r r' : Rng} {tr : List State}
    (h : run n T threshold rate cap prop j st r = (.ok tr, r'))
    (hg : GoodEnough threshold (cost n T ((tr.map State.gates).getLast?.getD st.gates))) (m : ℕ) :
    ∃ tr' r'', run n T threshold rate cap prop m st r = (.ok tr', r'') ∧ tr'.length ≤ j := by
  classical
  have good : ∀ {st : State} {m : ℕ}, GoodEnough threshold (cost n T st.gates) →
      run n T threshold rate cap prop m st = pure [] := by
    intro st m h
    cases m with
    | zero => rfl
    | succ m => rw [run, if_pos h]
  induction j generalizing st r tr m with
  | zero =>
    cases h
    exact ⟨[], r', by rw [good (by simpa using hg)]; rfl, le_rfl⟩
  | succ j ih =>
    by_cases hst : GoodEnough threshold (cost n T st.gates)
    · exact ⟨[], r, by rw [good hst]; rfl, Nat.zero_le _⟩
    · cases m with
      | zero => exact ⟨[], r, rfl, Nat.zero_le _⟩
      | succ m =>
        rw [run, if_neg hst] at h
        obtain ⟨st', r1, h1, h2⟩ := PyM.bind_eq_ok_iff.mp h
        obtain ⟨rest, r2, h3, h4⟩ := PyM.bind_eq_ok_iff.mp h2
        cases h4
        obtain ⟨tr', r'', h5, h6⟩ := ih h3 (by
          rw [List.map_cons, List.getLast?_cons, Option.getD_some] at hg
          exact hg) m
        refine ⟨st' :: tr', r'', ?_, by simpa using h6⟩
        rw [run, if_neg hst, PyM.bind_of_ok h1, PyM.bind_of_ok h5]
        rfl

end Metropolis

/-- The distribution and the mean of the number of steps, from the probability of success with any number of steps. -/
theorem steps_of_wins {B n : ℕ} {C : Compiler} {target : Unitary} {threshold : Option ℝ} {m : ℕ}
    {prop : List EntryVal → PyM Rng (List EntryVal)} {b : ℝ} {w : World} {M : PyM World CompilerResult}
    (h : ∀ t, FollowsWalk n C target threshold m prop b (w.reseed t) (M (w.reseed t)))
    (hev : ResultEvents n fun t => M (w.reseed t)) {δ : ℝ} {K : ℕ} (h0 : 0 < δ) (h1 : δ ≤ 1) (hK : 0 < K)
    (hw : ∀ j, Metropolis.Wins B n (target.matrix.toMatrix (2 ^ n)) threshold C.annealingRate (((2 : ℝ) ^ 2 ^ n) ^ 2) prop
      j ⟨[], b⟩ (1 - (1 - δ) ^ (j / K))) :
    Measurable (fun t => stepCount (M (w.reseed t))) ∧
    (∀ j : ℕ, Rng.tapes B {t | (j : ENNReal) < stepCount (M (w.reseed t))} ≤ ENNReal.ofReal ((1 - δ) ^ (j / K))) ∧
    ∫⁻ t, stepCount (M (w.reseed t)) ∂Rng.tapes B ≤ ENNReal.ofReal (K / δ) := by
  have hN : ∀ t, stepCount (M (w.reseed t)) = ⊤ ∨ ∃ k : ℕ, stepCount (M (w.reseed t)) = k := by
    intro t
    unfold stepCount
    rcases (M (w.reseed t)).1 with e | R
    · exact .inl rfl
    · exact .inr ⟨_, rfl⟩
  have hiff : ∀ (t : Rng.Tape) (k : ℕ), stepCount (M (w.reseed t)) = k ↔
      ∃ gates costs, ReturnsGates gates costs (M (w.reseed t)) ∧ costs.length = k := by
    intro t k
    have hf := h t
    unfold FollowsWalk at hf
    rcases hx : Metropolis.run n (target.matrix.toMatrix (2 ^ n)) threshold C.annealingRate (((2 : ℝ) ^ 2 ^ n) ^ 2) prop
      (m : ℤ).toNat ⟨[], b⟩ (w.reseed t).rng with ⟨e | tr, r'⟩
    · rw [hx] at hf
      unfold stepCount ReturnsGates
      rw [hf.1]
      simp
    · rw [hx] at hf
      obtain ⟨-, R, hR, -, ⟨undo, hv⟩, -⟩ := hf
      unfold stepCount ReturnsGates
      rw [hR]
      constructor
      · intro e
        change ((R.costByStep.length : ℕ) : ENNReal) = k at e
        exact ⟨_, _, ⟨R, rfl, rfl, _, hv, rfl⟩, by exact_mod_cast e⟩
      · rintro ⟨_, _, ⟨R', hR', rfl, -⟩, rfl⟩
        cases hR'
        rfl
  have hmk : ∀ k : ℕ, MeasurableSet {t | stepCount (M (w.reseed t)) = k} := by
    intro k
    have := hev 1 {x | x.2.1 = k} ((measurable_fst.comp measurable_snd) (measurableSet_singleton k))
    convert this using 1
    ext t
    exact hiff t k
  have hmeas : Measurable fun t => stepCount (M (w.reseed t)) := by
    have he : ∀ t, stepCount (M (w.reseed t)) = ∑' j : ℕ,
        (⋃ k ∈ Finset.range (j + 1), {t | stepCount (M (w.reseed t)) = k})ᶜ.indicator (fun _ => (1 : ENNReal)) t := by
      intro t
      rcases hN t with e | ⟨k, e⟩
      · have : (fun j : ℕ => (⋃ k ∈ Finset.range (j + 1), {t | stepCount (M (w.reseed t)) = k})ᶜ.indicator
            (fun _ => (1 : ENNReal)) t) = fun _ => 1 := by
          funext j
          rw [Set.indicator_of_mem]
          simp [e]
        rw [e, this, ENNReal.tsum_const_eq_top_of_ne_zero one_ne_zero]
      · rw [tsum_eq_sum (s := Finset.range k)]
        · rw [Finset.sum_congr rfl (g := fun _ => (1 : ENNReal))]
          · simp [e]
          · intro j hj
            rw [Set.indicator_of_mem]
            have := Finset.mem_range.mp hj
            simp only [Set.mem_compl_iff, Set.mem_iUnion, Set.mem_ofPred_eq, e, Nat.cast_inj, not_exists]
            intro i hi h'
            have := Finset.mem_range.mp hi
            omega
        · intro j hj
          rw [Set.indicator_of_notMem]
          have := Finset.mem_range.not.mp hj
          simp only [Set.mem_compl_iff, Set.mem_iUnion, Set.mem_ofPred_eq, e, Nat.cast_inj, not_not]
          exact ⟨k, Finset.mem_range.mpr (by omega), rfl⟩
    rw [funext he]
    refine Measurable.tsum fun j => measurable_const.indicator (MeasurableSet.compl ?_)
    exact Finset.measurableSet_biUnion _ fun k _ => hmk k
  have htail : ∀ j : ℕ, Rng.tapes B {t | (j : ENNReal) < stepCount (M (w.reseed t))} ≤
      ENNReal.ofReal ((1 - δ) ^ (j / K)) := by
    intro j
    have hA : MeasurableSet {t | (j : ENNReal) < stepCount (M (w.reseed t))} := measurableSet_lt measurable_const hmeas
    have h2 : ENNReal.ofReal (1 - (1 - δ) ^ (j / K)) ≤
        Rng.tapes B {t | (j : ENNReal) < stepCount (M (w.reseed t))}ᶜ := by
      refine (hw j).prob.trans (measure_mono fun t ht => ?_)
      obtain ⟨tr, r', hrun, hgood⟩ := ht (Rng.start t) (Rng.rest_start t)
      obtain ⟨tr', r'', h3, h4⟩ := Metropolis.run_limit hrun hgood m
      have hf := h t
      unfold FollowsWalk at hf
      rw [show (w.reseed t).rng = Rng.start t from rfl, Int.toNat_natCast, h3] at hf
      obtain ⟨-, R, hR, hc, -⟩ := hf
      change ¬ (j : ENNReal) < stepCount (M (w.reseed t))
      unfold stepCount
      rw [hR]
      simp only [hc, List.length_map, not_lt]
      exact_mod_cast h4
    have h5 := prob_compl_eq_one_sub (μ := Rng.tapes B) hA.compl
    rw [compl_compl] at h5
    rw [h5]
    have h6 : 0 ≤ (1 - δ) ^ (j / K) := pow_nonneg (by linarith) _
    have h7 : (1 - δ) ^ (j / K) ≤ 1 := pow_le_one₀ (by linarith) (by linarith)
    refine (tsub_le_tsub_left h2 1).trans (le_of_eq ?_)
    rw [← ENNReal.ofReal_one, ← ENNReal.ofReal_sub _ (by linarith), sub_sub_cancel]
  exact ⟨hmeas, htail, lintegral_steps_le hmeas hN h0 h1 hK htail⟩

end Stoq
