import Verif.Proofs.RavFails

/-! # Random circuits that are drawn again until they return -/

namespace Stoq

open MeasureTheory Matrix
open scoped Matrix.Norms.L2Operator

namespace Metropolis

variable {B n L : ℕ} {T : Matrix (Fin (2 ^ n)) (Fin (2 ^ n)) ℂ} {threshold : Option ℝ} {rate cap p : ℝ}
  {fresh : PyM Rng (List EntryVal)}

/-- Nothing can be removed from nothing. -/
theorem propose_nothing (hf : Rng.Total B fresh) (hp0 : 0 ≤ p) (hp1 : p ≤ 1) :
    Rng.Hits B (propose p fresh L []) (fun new => new = []) (1 - p) := by
  unfold propose
  rw [show 1 - p = 1 * (1 - p) by ring]
  refine (Rng.Hits.lift (B := B) (Q := fun _ => True) (raiseUnless_of ⟨hp0, hp1⟩) trivial).bind (by linarith)
    (by linarith) (fun _ _ _ => ?_) fun _ _ => ?_
  · rw [show 1 - p = (1 - p) * 1 by ring]
    refine (Rng.Hits.interval (x := p) (y := 1) hp0 hp1 le_rfl).bind zero_le_one le_rfl (fun u _ hu => ?_) fun u _ => ?_
    · rw [if_neg (by linarith [hu.1]), if_neg (by linarith [hu.1])]
      split_ifs
      · exact Rng.Hits.pure (by simp)
      · exact Rng.Hits.pure (by simp)
    · split_ifs
      · exact hf.bind fun _ _ => Rng.Total.pure _
      · exact hf.bind fun _ _ => Rng.Total.pure _
      · exact Rng.Total.pure _
      · exact Rng.Total.pure _
  · refine Rng.Total.bind Rng.Total.randomSample fun u _ => ?_
    split_ifs
    · exact hf.bind fun _ _ => Rng.Total.pure _
    · exact hf.bind fun _ _ => Rng.Total.pure _
    · exact Rng.Total.pure _
    · exact Rng.Total.pure _

theorem step_nothing (hf : Rng.Total B fresh) (hp0 : 0 ≤ p) (hp1 : p ≤ 1) (b : ℝ) :
    Rng.Hits B (step n T rate cap (propose p fresh L) ⟨[], b⟩) (fun st => st.gates = []) (1 - p) := by
  unfold step
  rw [show 1 - p = (1 - p) * 1 by ring]
  refine (propose_nothing hf hp0 hp1).bind zero_le_one le_rfl (fun new _ hnew => ?_) fun new _ => ?_
  · subst hnew
    refine Rng.Total.hits (Rng.Total.bind Rng.Total.randomSample fun u _ => ?_) fun st hst => ?_
    · split_ifs <;> exact Rng.Total.pure _
    · obtain ⟨u, -, hu⟩ := Rng.result_bind hst
      split_ifs at hu <;> rw [Rng.result_pure hu]
  · refine Rng.Total.bind Rng.Total.randomSample fun u _ => ?_
    split_ifs <;> exact Rng.Total.pure _

theorem run_total (hf : Rng.Total B fresh) (hp0 : 0 ≤ p) (hp1 : p ≤ 1) (k : ℕ) (st : State) :
    Rng.Total B (run n T threshold rate cap (propose p fresh L) k st) := by
  classical
  induction k generalizing st with
  | zero => exact Rng.Total.pure _
  | succ k ih =>
    unfold run
    split_ifs
    · exact Rng.Total.pure _
    · exact (step_total hf hp0 hp1 L st).bind fun st' _ => (ih st').bind fun _ _ => Rng.Total.pure _

/-- With positive probability a walk from no gates never has any. -/
theorem run_nothing (hf : Rng.Total B fresh) (hp0 : 0 ≤ p) (hp1 : p ≤ 1) (k : ℕ) (b : ℝ) :
    Rng.Hits B (run n T threshold rate cap (propose p fresh L) k ⟨[], b⟩) (fun tr => ∀ st ∈ tr, st.gates = [])
      ((1 - p) ^ k) := by
  classical
  induction k generalizing b with
  | zero => exact Rng.Hits.pure (by simp)
  | succ k ih =>
    have h0 : 0 ≤ (1 - p) ^ k := pow_nonneg (by linarith) _
    have h1 : (1 - p) ^ k ≤ 1 := pow_le_one₀ (by linarith) (by linarith)
    unfold run
    split_ifs
    · exact (Rng.Hits.pure (Q := fun tr : List State => ∀ st ∈ tr, st.gates = []) (by simp)).mono (fun _ _ h => h)
        (pow_le_one₀ (by linarith) (by linarith))
    · rw [pow_succ']
      refine (step_nothing hf hp0 hp1 b).bind h0 h1 (fun st _ hst => ?_) fun st _ =>
        (run_total hf hp0 hp1 k st).bind fun _ _ => Rng.Total.pure _
      obtain ⟨g, b'⟩ := st
      obtain rfl : g = [] := hst
      exact (ih b').map fun tr _ htr => by simpa using htr

end Metropolis

namespace Rng

variable {B : ℕ} {α : Type}

open Classical in
/-- Draw until the result is good, at most `k` times. -/
noncomputable def tries (m : PyM Rng α) (good : α → Prop) : ℕ → PyM Rng (Option α)
  | 0 => pure none
  | k + 1 => do
    let a ← m
    if good a then return some a else tries m good k

theorem tries_hits {m : PyM Rng α} {good : α → Prop} {q : ℝ} (h : Hits B m good q) (h0 : 0 ≤ q) (h1 : q ≤ 1) (k : ℕ) :
    Hits B (tries m good k) (fun a => a ≠ none) (1 - (1 - q) ^ k) := by
  classical
  induction k with
  | zero =>
    refine ((Hits.pure (B := B) (a := (none : Option α)) (Q := fun _ => True) trivial).total).mono (fun _ _ h => h.elim) ?_
    simp
  | succ k ih =>
    have x0 : 0 ≤ (1 - q) ^ k := pow_nonneg (by linarith) _
    have x1 : (1 - q) ^ k ≤ 1 := pow_le_one₀ (by linarith) (by linarith)
    intro S x y y0 y1 y2 hx hy
    have key := h (fun a => after (if good a then pure (some a) else tries m good k) S)
      ((1 - (1 - q) ^ k) * y + (1 - (1 - (1 - q) ^ k)) * x) y (by nlinarith) (by nlinarith) y2 (fun a => ?_) fun a ha => ?_
    · refine le_trans (ENNReal.ofReal_le_ofReal (le_of_eq ?_)) (key.trans (measure_mono fun t ht r hr => ?_))
      · rw [pow_succ]; ring
      · obtain ⟨a, r', e1, e2⟩ := ht r hr
        obtain ⟨b, r'', e3, e4⟩ := e2 r' rfl
        refine ⟨b, r'', ?_, e4⟩
        unfold tries
        rw [PyM.bind_of_ok e1]
        exact e3
    · by_cases ha : good a
      · rw [if_pos ha]
        have := Hits.pure (B := B) (a := some a) (Q := fun a => a ≠ none) (by simp) S x y y0 y1 y2 hx hy
        refine le_trans (ENNReal.ofReal_le_ofReal ?_) this
        nlinarith
      · rw [if_neg ha]
        exact ih S x y y0 y1 y2 hx hy
    · rw [if_pos ha]
      have := Hits.pure (B := B) (a := some a) (Q := fun a => a ≠ none) (by simp) S x y y0 y1 y2 hx hy
      exact le_trans (ENNReal.ofReal_le_ofReal (by nlinarith)) this

/-- The same several times; `none` if one of them fails. -/
noncomputable def triesList (m : PyM Rng α) (good : α → Prop) (k : ℕ) : ℕ → PyM Rng (Option (List α))
  | 0 => pure (some [])
  | count + 1 => do
    match ← tries m good k with
    | none => return none
    | some a => match ← triesList m good k count with
      | none => return none
      | some as => return some (a :: as)

theorem triesList_total {m : PyM Rng α} {good : α → Prop} {k : ℕ} (h : Total B (tries m good k)) (count : ℕ) :
    Total B (triesList m good k count) := by
  induction count with
  | zero => exact Total.pure _
  | succ count ih =>
    refine h.bind fun a _ => ?_
    cases a with
    | none => exact Total.pure _
    | some a =>
      refine ih.bind fun b _ => ?_
      cases b <;> exact Total.pure _

theorem triesList_hits {m : PyM Rng α} {good : α → Prop} {s : ℝ} {k : ℕ} (h : Hits B (tries m good k) (fun a => a ≠ none) s)
    (h0 : 0 ≤ s) (h1 : s ≤ 1) (count : ℕ) : Hits B (triesList m good k count) (fun a => a ≠ none) (s ^ count) := by
  induction count with
  | zero => exact Hits.pure (by simp)
  | succ count ih =>
    rw [pow_succ']
    unfold triesList
    refine h.bind (pow_nonneg h0 _) (pow_le_one₀ h0 h1) (fun a _ ha => ?_) fun a _ => ?_
    · cases a with
      | none => exact absurd rfl ha
      | some a =>
        rw [← mul_one (s ^ count)]
        refine ih.bind zero_le_one le_rfl (fun b _ hb => ?_) fun b _ => ?_
        · cases b with
          | none => exact absurd rfl hb
          | some b => exact Hits.pure (by simp)
        · cases b <;> exact Total.pure _
    · cases a with
      | none => exact Total.pure _
      | some a =>
        refine (triesList_total h.total count).bind fun b _ => ?_
        cases b <;> exact Total.pure _

end Rng

/-- If some possible random circuit is near to the identity, then with positive probability a random circuit and what
the walk adds to it are near to the identity. -/
theorem returns_of_word {B n L k : ℕ} {fresh : PyM Rng (List EntryVal)} (hf : Metropolis.Source B n L fresh)
    {ws : List (List EntryVal)} (hw : ∀ l ∈ ws, Rng.Result fresh l) (hk : ws.length = k) {p bound : ℝ} (hp : 0 ≤ p ∧ p < 1)
    (hnear : 1 - overlap 1 (circuit n ws.flatten) < bound) (rate cap : ℝ) (threshold : Option ℝ) (skip : Prop) (m : ℕ) :
    ∃ q : ℝ, 0 < q ∧ q ≤ 1 ∧ Rng.Hits B (Rav.plan n (Rav.blocks fresh k) (Metropolis.propose p fresh L) rate cap threshold skip m)
      (fun x => 1 - overlap 1 (circuit n (x.1 ++ Rav.final x.2)) ≤ bound) q := by
  classical
  subst hk
  have hpos : 0 < (bound - (1 - overlap 1 (circuit n ws.flatten))) / (ws.length + 1) := div_pos (by linarith) (by positivity)
  obtain ⟨q, h1, h2, h3⟩ := Rav.blocks_hits hf hpos hw
  have x0 : 0 < (1 - p) ^ m := pow_pos (by linarith [hp.2]) _
  have x1 : (1 - p) ^ m ≤ 1 := pow_le_one₀ (by linarith [hp.2]) (by linarith [hp.1])
  refine ⟨q * (1 - p) ^ m, mul_pos h1 x0, mul_le_one₀ h2 x0.le x1, ?_⟩
  unfold Rav.plan
  refine h3.bind x0.le x1 (fun pre _ hpre => ?_) fun pre _ => ?_
  · have hgood : 1 - overlap 1 (circuit n pre) ≤ bound := by
      obtain ⟨c, hc, h⟩ := hpre
      have h4 := overlap_sub_le (Nat.two_pow_pos n) (one_mem (unitaryGroup (Fin (2 ^ n)) ℂ)) (A := circuit n pre)
        (B := c • circuit n ws.flatten)
      rw [overlap_smul_right hc] at h4
      have h5 := h4.trans h
      have h6 : (ws.length : ℝ) * ((bound - (1 - overlap 1 (circuit n ws.flatten))) / (ws.length + 1)) ≤
          bound - (1 - overlap 1 (circuit n ws.flatten)) := by
        rw [mul_div_assoc', div_le_iff₀ (by positivity)]
        nlinarith [show (0 : ℝ) ≤ ws.length by positivity]
      linarith
    split_ifs
    · exact (Rng.Hits.pure (B := B) (a := (pre, ([] : List Metropolis.State)))
        (Q := fun x => 1 - overlap 1 (circuit n (x.1 ++ Rav.final x.2)) ≤ bound) (by simpa [Rav.final] using hgood)).mono
          (fun _ _ h => h) x1
    · refine (Metropolis.run_nothing hf.total hp.1 hp.2.le _ 0).map fun tr _ htr => ?_
      have hfin : Rav.final tr = [] := by
        unfold Rav.final
        rcases hx : tr.getLast? with _ | st
        · rfl
        · exact htr st (List.mem_of_getLast? hx)
      simpa [hfin] using hgood
  · split_ifs
    · exact Rng.Total.pure _
    · exact (Metropolis.run_total hf.total hp.1 hp.2.le _ _).bind fun _ _ => Rng.Total.pure _

end Stoq
