import Verif.Proofs.Law

/-! # The distribution of the Metropolis walk -/

namespace Stoq

open MeasureTheory ProbabilityTheory

theorem coin_true {p : ℝ} (h0 : 0 ≤ p) (h1 : p ≤ 1) : coin p true = ENNReal.ofReal p := by
  unfold coin
  rw [PMF.ofFintype_apply, if_pos rfl, min_eq_left h1, max_eq_right h0]

theorem coin_false {p : ℝ} (h0 : 0 ≤ p) (h1 : p ≤ 1) : coin p false = ENNReal.ofReal (1 - p) := by
  unfold coin
  rw [PMF.ofFintype_apply, if_neg (by simp), min_eq_left h1, max_eq_right h0]

namespace Rng

variable {B : ℕ} {α β : Type}

namespace HasLaw

theorem congr {m m' : PyM Rng α} {law law' : PMF α} (h : HasLaw B m law) (hm : m' = m) (hl : law' = law) :
    HasLaw B m' law' := by subst hm hl; exact h

/-- A program that uses one real number through a function whose values are attained on intervals. -/
theorem sample_bind {g : ℝ → α} {law : PMF α} {k : ℝ → PyM Rng β} {k' : α → PyM Rng β} {law' : α → PMF β}
    (hg : ∀ a, ∃ x y : ℝ, 0 ≤ x ∧ x ≤ y ∧ y ≤ 1 ∧ (∀ u : Set.Ico (0 : ℝ) 1, g u = a ↔ x ≤ u ∧ (u : ℝ) < y) ∧
      law a = ENNReal.ofReal (y - x))
    (hk : ∀ u : Set.Ico (0 : ℝ) 1, k u = k' (g u)) (hk' : ∀ a ∈ law.support, HasLaw B (k' a) (law' a)) :
    HasLaw B (randomSample >>= k) (law.bind law') := by
  have h1 : HasLaw B (fun r : Rng => (.ok (g (r.unif r.upos)), r.skip 1 0)) law := by
    refine sample (g := fun u : Set.Ico (0 : ℝ) 1 => g u) (fun u => ?_) (fun a => ?_) fun a => ?_
    · obtain ⟨x, y, h0, hxy, h1, hiff, hl⟩ := hg (g u)
      have := (hiff u).mp rfl
      rw [PMF.mem_support_iff, hl]
      exact (ENNReal.ofReal_pos.mpr (by linarith [this.1, this.2])).ne'
    · obtain ⟨x, y, -, -, -, hiff, -⟩ := hg a
      rw [show {u : Set.Ico (0 : ℝ) 1 | g u = a} = {u : Set.Ico (0 : ℝ) 1 | x ≤ u ∧ (u : ℝ) < y} from Set.ext hiff]
      exact measurableSet_interval x y
    · obtain ⟨x, y, h0, hxy, h1, hiff, hl⟩ := hg a
      rw [show {u : Set.Ico (0 : ℝ) 1 | g u = a} = {u : Set.Ico (0 : ℝ) 1 | x ≤ u ∧ (u : ℝ) < y} from Set.ext hiff, hl,
        ← uniformUnit_interval h0 hxy h1, ofReal_measureReal]
  refine (h1.bind hk').congr ?_ rfl
  funext r
  rw [PyM.bind_of_ok (m := fun r : Rng => (.ok (g (r.unif r.upos)), r.skip 1 0)) rfl,
    PyM.bind_of_ok (m := randomSample) rfl, hk]
  rfl

end HasLaw

end Rng

namespace Metropolis

variable {B : ℕ}

theorem propose_law {p : ℝ} (h0 : 0 ≤ p) (h1 : p ≤ 1) {fresh : PyM Rng (List EntryVal)} {φ : PMF (List EntryVal)}
    (hf : Rng.HasLaw B fresh φ) (L : ℕ) (g : List EntryVal) :
    Rng.HasLaw B (propose p fresh L g) (proposeLaw p φ L g) := by
  classical
  have hl : proposeLaw p φ L g = ((coin p).bind fun a => (coin (1 / 2)).map fun b => (a, b)).bind fun ab =>
      if ab.1 then φ.map fun new => if ab.2 then new.reverse ++ g else g ++ new
      else PMF.pure (if ab.2 then g.drop L else g.take (g.length - L)) := by
    rw [PMF.bind_bind]
    refine congrArg _ (funext fun a => ?_)
    rw [PMF.bind_map]
    refine congrArg _ (funext fun b => ?_)
    cases a <;> rfl
  rw [hl]
  unfold propose
  refine Rng.HasLaw.bind_lift (raiseUnless_of ⟨h0, h1⟩) ?_
  refine Rng.HasLaw.sample_bind
    (g := fun u => (decide (u < p), if u < p then decide (u < p / 2) else decide (u < p + (1 - p) / 2)))
    (k' := fun ab => if ab.1 then fresh >>= fun new => Pure.pure (if ab.2 then new.reverse ++ g else g ++ new)
      else Pure.pure (if ab.2 then g.drop L else g.take (g.length - L))) (fun ab => ?_) (fun u => ?_) fun ab _ => ?_
  · have hv : ((coin p).bind fun a => (coin (1 / 2)).map fun b => (a, b)) ab = coin p ab.1 * coin (1 / 2) ab.2 := by
      rw [PMF.bind_apply, tsum_eq_single ab.1]
      · congr 1
        rw [PMF.map_apply, tsum_eq_single ab.2]
        · rw [if_pos rfl]
        · intro b hb
          exact if_neg fun h => hb (Prod.ext_iff.mp h).2.symm
      · intro a ha
        rw [PMF.map_apply]
        simp only [mul_eq_zero]
        refine .inr (ENNReal.tsum_eq_zero.mpr fun b => if_neg fun h => ha (Prod.ext_iff.mp h).1.symm)
    have c1 : coin (1 / 2) true = ENNReal.ofReal (1 / 2) := coin_true (by norm_num) (by norm_num)
    have c2 : coin (1 / 2) false = ENNReal.ofReal (1 / 2) := by rw [coin_false (by norm_num) (by norm_num)]; norm_num
    rw [hv]
    obtain ⟨a, b⟩ := ab
    cases a <;> cases b
    · refine ⟨p + (1 - p) / 2, 1, by linarith, by linarith, le_rfl, fun u => ?_, ?_⟩
      · have := u.2.2
        simp only [Prod.mk.injEq, decide_eq_false_iff_not, not_lt]
        constructor
        · rintro ⟨h3, h4⟩
          rw [if_neg (not_lt.mpr h3)] at h4
          simp only [decide_eq_false_iff_not, not_lt] at h4
          exact ⟨h4, this⟩
        · rintro ⟨h3, -⟩
          have h4 : p ≤ u := by linarith
          exact ⟨h4, by rw [if_neg (not_lt.mpr h4)]; simpa using h3⟩
      · rw [coin_false h0 h1, c2, ← ENNReal.ofReal_mul (by linarith)]
        congr 1; ring
    · refine ⟨p, p + (1 - p) / 2, h0, by linarith, by linarith, fun u => ?_, ?_⟩
      · simp only [Prod.mk.injEq, decide_eq_false_iff_not, not_lt]
        refine and_congr_right fun h3 => ?_
        rw [if_neg (not_lt.mpr h3), decide_eq_true_eq]
      · rw [coin_false h0 h1, c1, ← ENNReal.ofReal_mul (by linarith)]
        congr 1; ring
    · refine ⟨p / 2, p, by linarith, by linarith, h1, fun u => ?_, ?_⟩
      · simp only [Prod.mk.injEq, decide_eq_true_eq]
        rw [and_comm]
        refine and_congr_left fun h3 => ?_
        rw [if_pos h3, decide_eq_false_iff_not, not_lt]
      · rw [coin_true h0 h1, c2, ← ENNReal.ofReal_mul h0]
        congr 1; ring
    · refine ⟨0, p / 2, le_rfl, by linarith, by linarith, fun u => ?_, ?_⟩
      · have := u.2.1
        simp only [Prod.mk.injEq, decide_eq_true_eq]
        constructor
        · rintro ⟨h3, h4⟩
          rw [if_pos h3, decide_eq_true_eq] at h4
          exact ⟨this, h4⟩
        · rintro ⟨-, h3⟩
          have h4 : (u : ℝ) < p := by linarith
          exact ⟨h4, by rw [if_pos h4, decide_eq_true_eq]; exact h3⟩
      · rw [coin_true h0 h1, c1, ← ENNReal.ofReal_mul h0]
        congr 1; ring
  · by_cases h3 : (u : ℝ) < p
    · by_cases h4 : (u : ℝ) < p / 2
      · simp [h3, h4]
      · simp [h3, h4]
    · have h4 : ¬ (u : ℝ) < p / 2 := by linarith
      by_cases h5 : (u : ℝ) < p + (1 - p) / 2
      · simp [h3, h4, h5]
      · simp [h3, h4, h5]
  · obtain ⟨a, b⟩ := ab
    cases a
    · exact Rng.HasLaw.pure _
    · exact hf.map _

theorem step_law {n : ℕ} {T : Matrix (Fin (2 ^ n)) (Fin (2 ^ n)) ℂ} {rate cap : ℝ}
    {prop : List EntryVal → PyM Rng (List EntryVal)} {law : List EntryVal → PMF (List EntryVal)}
    (h : ∀ g, Rng.HasLaw B (prop g) (law g)) (st : State) :
    Rng.HasLaw B (step n T rate cap prop st) (stepLaw n T rate cap law st) := by
  unfold step stepLaw
  refine (h st.gates).bind fun new _ => ?_
  set a := min 1 (Real.exp (-min (st.beta + rate) cap * (cost n T new - cost n T st.gates)))
  have ha0 : 0 ≤ a := le_min zero_le_one (Real.exp_nonneg _)
  have ha1 : a ≤ 1 := min_le_left _ _
  open Classical in
  refine Rng.HasLaw.sample_bind (g := fun u => decide (u < a)) (law := coin a)
    (k' := fun b => Pure.pure ⟨if b then new else st.gates, min (st.beta + rate) cap⟩) (fun b => ?_) (fun u => ?_)
    fun b _ => Rng.HasLaw.pure _
  · cases b
    · exact ⟨a, 1, ha0, ha1, le_rfl, fun u => by simp [u.2.2], coin_false ha0 ha1⟩
    · refine ⟨0, a, le_rfl, ha0, ha1, fun u => ?_, by rw [coin_true ha0 ha1, sub_zero]⟩
      have := u.2.1
      simp [this]
  · by_cases hu : (u : ℝ) < a
    · simp [hu]
    · simp [hu]

theorem run_law {n : ℕ} {T : Matrix (Fin (2 ^ n)) (Fin (2 ^ n)) ℂ} {threshold : Option ℝ} {rate cap : ℝ}
    {prop : List EntryVal → PyM Rng (List EntryVal)} {law : List EntryVal → PMF (List EntryVal)}
    (h : ∀ g, Rng.HasLaw B (prop g) (law g)) (k : ℕ) (st : State) :
    Rng.HasLaw B (run n T threshold rate cap prop k st) (runLaw n T threshold rate cap law k st) := by
  induction k generalizing st with
  | zero => exact Rng.HasLaw.pure _
  | succ k ih =>
    unfold run runLaw
    split_ifs
    · exact Rng.HasLaw.pure _
    · exact (step_law h st).bind fun st' _ => (ih st').bind fun rest _ => Rng.HasLaw.pure _

end Metropolis

end Stoq
