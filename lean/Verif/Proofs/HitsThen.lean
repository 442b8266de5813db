import Verif.Proofs.HitsPossible

/-! # A search that succeeds and leaves a good tape to what comes next -/

namespace Stoq

open Matrix MeasureTheory

namespace Metropolis

variable {B n L : ℕ} {T : Matrix (Fin (2 ^ n)) (Fin (2 ^ n)) ℂ} {threshold : Option ℝ} {rate cap p : ℝ}
  {fresh : PyM Rng (List EntryVal)}

/-- The walk of at most `k` steps from `st` ends with a good result and leaves a tape of `S`. -/
def WinsThen (n : ℕ) (T : Matrix (Fin (2 ^ n)) (Fin (2 ^ n)) ℂ) (threshold : Option ℝ) (rate cap : ℝ)
    (proposal : List EntryVal → PyM Rng (List EntryVal)) (k : ℕ) (st : State) (S : Set Rng.Tape) : Set Rng.Tape :=
  Rng.after (run n T threshold rate cap proposal k st) fun tr =>
    {t | GoodEnough threshold (cost n T ((tr.map State.gates).getLast?.getD st.gates)) ∧ t ∈ S}

theorem winsThen_good {proposal : List EntryVal → PyM Rng (List EntryVal)} {k : ℕ} {st : State} {S : Set Rng.Tape}
    (h : GoodEnough threshold (cost n T st.gates)) : S ⊆ WinsThen n T threshold rate cap proposal k st S := by
  classical
  have e : run n T threshold rate cap proposal k st = pure [] := by
    cases k with
    | zero => rfl
    | succ k => rw [run, if_pos h]
  unfold WinsThen
  rw [e]
  intro t ht r hr
  exact ⟨[], r, rfl, by simpa using h, hr ▸ ht⟩

theorem winsThen_step {proposal : List EntryVal → PyM Rng (List EntryVal)} {k : ℕ} {st : State} {S : Set Rng.Tape}
    (h : ¬ GoodEnough threshold (cost n T st.gates)) :
    Rng.after (step n T rate cap proposal st) (fun st' => WinsThen n T threshold rate cap proposal k st' S) ⊆
      WinsThen n T threshold rate cap proposal (k + 1) st S := by
  classical
  intro t ht r hr
  obtain ⟨st', r1, e1, e2⟩ := ht r hr
  obtain ⟨tr, r2, e3, e4⟩ := e2 r1 rfl
  refine ⟨st' :: tr, r2, ?_, ?_, e4.2⟩
  · rw [run, if_neg h, PyM.bind_of_ok e1, PyM.bind_of_ok e3]
    rfl
  · simpa [List.getLast?_cons] using e4.1

/-- Following a word that leads to the goal. -/
theorem winsThen_word (hT : T ∈ unitaryGroup (Fin (2 ^ n)) ℂ) (hf : Source B n L fresh) (hr : 0 ≤ rate) (hcap : 0 ≤ cap)
    (hp0 : 0 ≤ p) (hp1 : p ≤ 1) {k : ℕ} {c ε y : ℝ} (hy0 : 0 ≤ y) (hy1 : y ≤ 1) {S : Set Rng.Tape}
    (hS : ENNReal.ofReal y ≤ Rng.tapes B S) (hc0 : 0 ≤ c) (hc1 : c ≤ 1) (ws : List (List EntryVal))
    (hc : ∀ l ∈ ws, ∃ q : ℝ, 0 ≤ q ∧ q ≤ 1 ∧ Rng.Hits B fresh (NearCircuit n ε l) q ∧ c ≤ p / 2 * q * Real.exp (-cap))
    {st : State} (hst : Reachable {l | Rng.Result fresh l} st)
    (hg : ∀ ls, List.Forall₂ (NearCircuit n ε) ws ls → (∀ l ∈ ls, Rng.Result fresh l) →
      GoodEnough threshold (cost n T (st.gates ++ ls.flatten))) :
    ENNReal.ofReal (c ^ ws.length * y) ≤
      Rng.tapes B (WinsThen n T threshold rate cap (propose p fresh L) (k + ws.length) st S) := by
  have hpow : ∀ i : ℕ, c ^ i ≤ 1 := fun i => pow_le_one₀ hc0 hc1
  have hpow0 : ∀ i : ℕ, 0 ≤ c ^ i := fun i => pow_nonneg hc0 i
  induction ws generalizing st with
  | nil =>
    refine le_trans (ENNReal.ofReal_le_ofReal ?_) (hS.trans (measure_mono (winsThen_good ?_)))
    · simp
    · simpa using hg [] .nil (by simp)
  | cons l ws ih =>
    by_cases hgood : GoodEnough threshold (cost n T st.gates)
    · refine le_trans (ENNReal.ofReal_le_ofReal ?_) (hS.trans (measure_mono (winsThen_good hgood)))
      nlinarith [hpow (l :: ws).length]
    obtain ⟨q, hq0, hq1, hq, hcq⟩ := hc l List.mem_cons_self
    have hs := (step_hits hT hf.layers hr hcap hp0 hp1 hq hq0 hq1 hst).mono (Q' := fun st' => ∃ l', Rng.Result fresh l' ∧
      NearCircuit n ε l l' ∧ st'.gates = st.gates ++ l') (fun _ _ h => h) hcq
    have h2 := hs.use (S := fun st' => WinsThen n T threshold rate cap (propose p fresh L) (k + ws.length) st' S) (x := 0)
      (y := c ^ ws.length * y) le_rfl (mul_nonneg (hpow0 _) hy0) (by nlinarith [hpow ws.length, hpow0 ws.length])
      (fun st' hst' => by simp)
      (fun st' hst' => by
        rintro ⟨l', hl', hn, e⟩
        refine ih (fun l hl => hc l (List.mem_cons_of_mem _ hl)) (hst.step_result hf.layers hr hcap hst')
          fun ls hls hr' => ?_
        have := hg (l' :: ls) (.cons hn hls) (by
          intro l2 hl2
          rcases List.mem_cons.mp hl2 with rfl | hl2
          exacts [hl', hr' l2 hl2])
        rw [e]
        simpa [List.append_assoc] using this)
    refine le_trans (ENNReal.ofReal_le_ofReal (le_of_eq ?_)) (h2.trans (measure_mono (winsThen_step hgood)))
    rw [List.length_cons, pow_succ]
    ring

/-- A search that can succeed does so, and what follows it as well, with positive probability. -/
theorem winsThen_possible (hf : Source B n L fresh) (hcap : 0 ≤ cap)
    (hp0 : 0 < p) (hp1 : p ≤ 1) {ws : List (List EntryVal)} (hw : ∀ l ∈ ws, Rng.Result fresh l)
    {x : ℝ} (hx : x < allowed threshold) {m : ℕ} (hm : ws.length ≤ m) :
    ∃ δ : ℝ, 0 < δ ∧ δ ≤ 1 ∧ ∀ T ∈ unitaryGroup (Fin (2 ^ n)) ℂ, cost n T ws.flatten ≤ x → ∀ rate, 0 ≤ rate → ∀ b,
      0 ≤ b → ∀ y, 0 ≤ y → y ≤ 1 → ∀ S : Set Rng.Tape, ENNReal.ofReal y ≤ Rng.tapes B S →
        ENNReal.ofReal (δ * y) ≤ Rng.tapes B (WinsThen n T threshold rate cap (propose p fresh L) m ⟨[], b⟩ S) := by
  classical
  have he0 := Real.exp_pos (-cap)
  have he1 : Real.exp (-cap) ≤ 1 := Real.exp_le_one_iff.mpr (by linarith)
  obtain ⟨y, hy, hx2⟩ := exists_between hx
  obtain ⟨ε, hε, h3⟩ := exists_tolerance hf.layers (Ws := {ws}) (by simpa using hw) hx2
  obtain ⟨c, hc0, hc1, hc⟩ : ∃ c : ℝ, 0 < c ∧ c ≤ 1 ∧ ∀ l ∈ ws, ∃ q : ℝ, 0 ≤ q ∧ q ≤ 1 ∧
      Rng.Hits B fresh (NearCircuit n ε l) q ∧ c ≤ p / 2 * q * Real.exp (-cap) := by
    clear hm h3
    induction ws with
    | nil => exact ⟨1, one_pos, le_rfl, by simp⟩
    | cons l ws ih =>
      obtain ⟨c, hc0, hc1, hc⟩ := ih fun x hx => hw x (List.mem_cons_of_mem _ hx)
      obtain ⟨q, hq0, hq1, hq⟩ := hf.hits l (hw l List.mem_cons_self) ε hε
      refine ⟨min c (p / 2 * q * Real.exp (-cap)), lt_min hc0 (by positivity), (min_le_left _ _).trans hc1, ?_⟩
      intro l' hl'
      rcases List.mem_cons.mp hl' with rfl | hl'
      · exact ⟨q, hq0.le, hq1, hq, min_le_right _ _⟩
      · obtain ⟨q', h1, h2, h3, h4⟩ := hc l' hl'
        exact ⟨q', h1, h2, h3, (min_le_left _ _).trans h4⟩
  refine ⟨c ^ ws.length, pow_pos hc0 _, pow_le_one₀ hc0.le hc1, fun T hT hx1 rate hr b hb y' hy0 hy1 S hS => ?_⟩
  have h4 := winsThen_word (k := m - ws.length) hT hf hr hcap hp0.le hp1 hy0 hy1 hS hc0.le hc1 ws hc (st := ⟨[], b⟩)
    ⟨.nil, hb⟩ fun ls hls hres => by
      obtain ⟨h8, h9⟩ := h3 T [] ws hT (Finset.mem_singleton_self _) .nil (by simpa using hx1.trans_lt hy) ls hls hres
      exact goodEnough_of_le h8 h9.le
  rwa [show m - ws.length + ws.length = m by omega] at h4

end Metropolis

end Stoq
