import Verif.Proofs.Hits
import Verif.Proofs.LawReach

/-! # The Metropolis walk reaches its goal, with any distribution of gates -/

namespace Stoq

open Matrix MeasureTheory
open scoped Matrix.Norms.L2Operator

namespace Rng

variable {B : ℕ} {α : Type}

theorem Hits.use {m : PyM Rng α} {Q : α → Prop} {p : ℝ} (h : Hits B m Q p) {S : α → Set Tape} {x y : ℝ} (h0 : 0 ≤ x)
    (h1 : x ≤ y) (h2 : y ≤ 1) (hx : ∀ a, Result m a → ENNReal.ofReal x ≤ tapes B (S a))
    (hy : ∀ a, Result m a → Q a → ENNReal.ofReal y ≤ tapes B (S a)) :
    ENNReal.ofReal (p * y + (1 - p) * x) ≤ tapes B (after m S) := by
  have huniv : ∀ a, ¬ Result m a → ∀ z ≤ (1 : ℝ), ENNReal.ofReal z ≤ tapes B {t | Result m a → t ∈ S a} := by
    intro a hr z hz
    have : {t : Tape | Result m a → t ∈ S a} = Set.univ := Set.eq_univ_of_forall fun t h' => absurd h' hr
    rw [this, measure_univ]
    exact ENNReal.ofReal_le_one.mpr hz
  refine (h (fun a => {t | Result m a → t ∈ S a}) x y h0 h1 h2 (fun a => ?_) (fun a ha => ?_)).trans
    (measure_mono fun t ht r hr => ?_)
  · by_cases hr : Result m a
    · exact (hx a hr).trans (measure_mono fun t ht _ => ht)
    · exact huniv a hr x (h1.trans h2)
  · by_cases hr : Result m a
    · exact (hy a hr ha).trans (measure_mono fun t ht _ => ht)
    · exact huniv a hr y h2
  · obtain ⟨a, r', e1, e2⟩ := ht r hr
    exact ⟨a, r', e1, e2 ⟨r, r', e1⟩⟩

theorem Total.use {m : PyM Rng α} (h : Total B m) {S : α → Set Tape} {x : ℝ} (h0 : 0 ≤ x) (h1 : x ≤ 1)
    (hx : ∀ a, Result m a → ENNReal.ofReal x ≤ tapes B (S a)) : ENNReal.ofReal x ≤ tapes B (after m S) := by
  have := Hits.use h h0 le_rfl h1 hx fun a _ ha => ha.elim
  rwa [zero_mul, zero_add, sub_zero, one_mul] at this

theorem Hits.result {m : PyM Rng α} {Q : α → Prop} {p : ℝ} (h : Hits B m Q p) :
    Hits B m (fun a => Result m a ∧ Q a) p := h.mono (fun _ h1 h2 => ⟨h1, h2⟩) le_rfl

theorem Hits.interval {x y : ℝ} (h0 : 0 ≤ x) (h1 : x ≤ y) (h2 : y ≤ 1) :
    Hits B Rng.randomSample (fun u => x ≤ u ∧ u < y) (y - x) := by
  have h := Hits.randomSample (B := B) (measurableSet_interval x y)
  rw [uniformUnit_interval h0 h1 h2] at h
  refine h.mono ?_ le_rfl
  rintro _ - ⟨u, hu, rfl⟩
  exact hu

theorem result_bind {β : Type} {m : PyM Rng α} {k : α → PyM Rng β} {b : β} (h : Result (m >>= k) b) :
    ∃ a, Result m a ∧ Result (k a) b := by
  obtain ⟨r, r', h⟩ := h
  obtain ⟨a, r1, h1, h2⟩ := PyM.bind_eq_ok_iff.mp h
  exact ⟨a, ⟨r, r1, h1⟩, ⟨r1, r', h2⟩⟩

theorem result_pure {a b : α} (h : Result (Pure.pure a : PyM Rng α) b) : b = a := by
  obtain ⟨r, r', h⟩ := h
  cases h
  rfl

theorem result_lift {e : Except PyErr α} {b : α} (h : Result (PyM.lift e) b) : e = .ok b := by
  obtain ⟨r, r', h⟩ := h
  exact (PyM.lift_eq_ok_iff.mp h).1

end Rng

/-- The circuits are the same up to a phase and an error `ε`. -/
def NearCircuit (n : ℕ) (ε : ℝ) (l l' : List EntryVal) : Prop :=
  ∃ c : ℂ, ‖c‖ = 1 ∧ ‖circuit n l' - c • circuit n l‖ ≤ ε

namespace Metropolis

variable {B n L : ℕ} {T : Matrix (Fin (2 ^ n)) (Fin (2 ^ n)) ℂ} {threshold : Option ℝ} {rate cap p : ℝ}
  {fresh : PyM Rng (List EntryVal)}

/-- What the walk needs to know of the program that makes new gates: it never raises an exception, comes close to every
possible layer with a positive probability, and its layers are as before. -/
structure Source (B n L : ℕ) (fresh : PyM Rng (List EntryVal)) : Prop where
  total : Rng.Total B fresh
  layers : LayerOk n L {l | Rng.Result fresh l}
  hits : ∀ l, Rng.Result fresh l → ∀ ε > 0, ∃ q : ℝ, 0 < q ∧ q ≤ 1 ∧ Rng.Hits B fresh (NearCircuit n ε l) q

/-- The walk of at most `k` steps from `st` ends with a good result, and leaves a tape of `S st'`, where `st'` is its
last state. -/
def GoodEnd (n : ℕ) (T : Matrix (Fin (2 ^ n)) (Fin (2 ^ n)) ℂ) (threshold : Option ℝ) (rate cap : ℝ)
    (proposal : List EntryVal → PyM Rng (List EntryVal)) (S : State → Set Rng.Tape) (k : ℕ) (st : State) : Set Rng.Tape :=
  Rng.after (run n T threshold rate cap proposal k st) fun tr =>
    {t | GoodEnough threshold (cost n T ((tr.map State.gates).getLast?.getD st.gates)) ∧ t ∈ S (tr.getLast?.getD st)}

/-- The walk of at most `k` steps from `st` ends with a good result with probability at least `x`, whatever comes next:
if this has probability at least `y` on a fresh tape, then both have probability at least `x * y`. -/
def Wins (B n : ℕ) (T : Matrix (Fin (2 ^ n)) (Fin (2 ^ n)) ℂ) (threshold : Option ℝ) (rate cap : ℝ)
    (proposal : List EntryVal → PyM Rng (List EntryVal)) (k : ℕ) (st : State) (x : ℝ) : Prop :=
  ∀ (S : State → Set Rng.Tape) (y : ℝ), 0 ≤ y → y ≤ 1 → (∀ st', ENNReal.ofReal y ≤ Rng.tapes B (S st')) →
    ENNReal.ofReal (x * y) ≤ Rng.tapes B (GoodEnd n T threshold rate cap proposal S k st)

theorem Wins.prob {proposal : List EntryVal → PyM Rng (List EntryVal)} {k : ℕ} {st : State} {x : ℝ}
    (h : Wins B n T threshold rate cap proposal k st x) :
    ENNReal.ofReal x ≤ Rng.tapes B (Rng.after (run n T threshold rate cap proposal k st) fun tr =>
      {_t | GoodEnough threshold (cost n T ((tr.map State.gates).getLast?.getD st.gates))}) := by
  have h1 := h (fun _ => Set.univ) 1 zero_le_one le_rfl fun _ => by simp
  rw [mul_one] at h1
  refine h1.trans (measure_mono fun t ht r hr => ?_)
  obtain ⟨tr, r', e1, e2⟩ := ht r hr
  exact ⟨tr, r', e1, e2.1⟩

theorem Wins.mono {proposal : List EntryVal → PyM Rng (List EntryVal)} {k : ℕ} {st : State} {x y : ℝ}
    (h : Wins B n T threshold rate cap proposal k st x) (hy : y ≤ x) : Wins B n T threshold rate cap proposal k st y :=
  fun S z hz0 hz1 hS => (ENNReal.ofReal_le_ofReal (mul_le_mul_of_nonneg_right hy hz0)).trans (h S z hz0 hz1 hS)

theorem wins_zero {proposal : List EntryVal → PyM Rng (List EntryVal)} {k : ℕ} {st : State} :
    Wins B n T threshold rate cap proposal k st 0 := fun S y _ _ _ => by simp

theorem wins_good {proposal : List EntryVal → PyM Rng (List EntryVal)} {k : ℕ} {st : State}
    (h : GoodEnough threshold (cost n T st.gates)) : Wins B n T threshold rate cap proposal k st 1 := by
  classical
  have e : run n T threshold rate cap proposal k st = pure [] := by
    cases k with
    | zero => rfl
    | succ k => rw [run, if_pos h]
  intro S y _ _ hS
  rw [one_mul, GoodEnd, e]
  refine (hS st).trans (measure_mono fun t ht r hr => ⟨[], r, rfl, by simpa using h, ?_⟩)
  subst hr
  simpa using ht

theorem after_step {proposal : List EntryVal → PyM Rng (List EntryVal)} {k : ℕ} {st : State}
    (h : ¬ GoodEnough threshold (cost n T st.gates)) {S : State → Set Rng.Tape} :
    Rng.after (step n T rate cap proposal st) (GoodEnd n T threshold rate cap proposal S k) ⊆
      GoodEnd n T threshold rate cap proposal S (k + 1) st := by
  classical
  intro t ht r hr
  obtain ⟨st', r1, e1, e2⟩ := ht r hr
  obtain ⟨tr, r2, e3, e4⟩ := e2 r1 rfl
  refine ⟨st' :: tr, r2, ?_, ?_⟩
  · rw [run, if_neg h, PyM.bind_of_ok e1, PyM.bind_of_ok e3]
    rfl
  · simpa [List.getLast?_cons] using e4

theorem propose_total (hf : Rng.Total B fresh) (hp0 : 0 ≤ p) (hp1 : p ≤ 1) (L : ℕ) (g : List EntryVal) :
    Rng.Total B (propose p fresh L g) := by
  unfold propose
  refine Rng.Total.bind (Rng.Hits.lift (Q := fun _ => True) (raiseUnless_of ⟨hp0, hp1⟩) trivial).total fun _ _ => ?_
  refine Rng.Total.bind Rng.Total.randomSample fun u _ => ?_
  split_ifs
  · exact hf.bind fun _ _ => Rng.Total.pure _
  · exact hf.bind fun _ _ => Rng.Total.pure _
  · exact Rng.Total.pure _
  · exact Rng.Total.pure _

theorem propose_hits {Q : List EntryVal → Prop} {q : ℝ} (hf : Rng.Hits B fresh Q q) (hq0 : 0 ≤ q) (hq1 : q ≤ 1)
    (hp0 : 0 ≤ p) (hp1 : p ≤ 1) (L : ℕ) (g : List EntryVal) :
    Rng.Hits B (propose p fresh L g) (fun new => ∃ l, Rng.Result fresh l ∧ Q l ∧ new = g ++ l) (p / 2 * q) := by
  unfold propose
  rw [show p / 2 * q = 1 * (p / 2 * q) by ring]
  refine (Rng.Hits.lift (B := B) (Q := fun _ => True) (raiseUnless_of ⟨hp0, hp1⟩) trivial).bind (by positivity)
    (mul_le_one₀ (by linarith) hq0 hq1) (fun _ _ _ => ?_) fun _ _ => ?_
  · rw [show p / 2 * q = (p - p / 2) * q by ring]
    refine (Rng.Hits.interval (x := p / 2) (y := p) (by linarith) (by linarith) hp1).bind hq0 hq1 (fun u _ hu => ?_)
      fun u _ => ?_
    · rw [if_neg (not_lt.mpr hu.1), if_pos hu.2]
      exact hf.map fun l h1 h2 => ⟨l, h1, h2, rfl⟩
    · split_ifs
      · exact hf.total.bind fun _ _ => Rng.Total.pure _
      · exact hf.total.bind fun _ _ => Rng.Total.pure _
      · exact Rng.Total.pure _
      · exact Rng.Total.pure _
  · refine Rng.Total.bind Rng.Total.randomSample fun u _ => ?_
    split_ifs
    · exact hf.total.bind fun _ _ => Rng.Total.pure _
    · exact hf.total.bind fun _ _ => Rng.Total.pure _
    · exact Rng.Total.pure _
    · exact Rng.Total.pure _

theorem Layered.propose_result (hφ : LayerOk n L {l | Rng.Result fresh l}) {g new : List EntryVal}
    (h : Layered {l | Rng.Result fresh l} g) (hn : Rng.Result (Metropolis.propose p fresh L g) new) :
    Layered {l | Rng.Result fresh l} new := by
  unfold Metropolis.propose at hn
  obtain ⟨-, -, hn⟩ := Rng.result_bind hn
  obtain ⟨u, -, hn⟩ := Rng.result_bind hn
  split_ifs at hn
  · obtain ⟨l, hl, hn⟩ := Rng.result_bind hn
    rw [Rng.result_pure hn]
    exact (Layered.single (hφ.reverse l hl)).append h
  · obtain ⟨l, hl, hn⟩ := Rng.result_bind hn
    rw [Rng.result_pure hn]
    exact h.append (.single hl)
  · rw [Rng.result_pure hn]; exact h.drop hφ
  · rw [Rng.result_pure hn]; exact h.take hφ

theorem Reachable.step_result (hφ : LayerOk n L {l | Rng.Result fresh l}) (hr : 0 ≤ rate) (hcap : 0 ≤ cap)
    {st st' : State} (h : Reachable {l | Rng.Result fresh l} st)
    (h' : Rng.Result (Metropolis.step n T rate cap (propose p fresh L) st) st') :
    Reachable {l | Rng.Result fresh l} st' := by
  unfold Metropolis.step at h'
  obtain ⟨new, hn, h'⟩ := Rng.result_bind h'
  obtain ⟨u, -, h'⟩ := Rng.result_bind h'
  have hb : 0 ≤ min (st.beta + rate) cap := le_min (by linarith [h.nonneg]) hcap
  split_ifs at h'
  · rw [Rng.result_pure h']; exact ⟨h.layered.propose_result hφ hn, hb⟩
  · rw [Rng.result_pure h']; exact ⟨h.layered, hb⟩

theorem step_total (hf : Rng.Total B fresh) (hp0 : 0 ≤ p) (hp1 : p ≤ 1) (L : ℕ) (st : State) :
    Rng.Total B (step n T rate cap (propose p fresh L) st) := by
  unfold step
  refine Rng.Total.bind (propose_total hf hp0 hp1 L _) fun new _ => ?_
  refine Rng.Total.bind Rng.Total.randomSample fun u _ => ?_
  split_ifs <;> exact Rng.Total.pure _

/-- The probability of appending a layer close to a given one. -/
theorem step_hits (hT : T ∈ unitaryGroup (Fin (2 ^ n)) ℂ) (hφ : LayerOk n L {l | Rng.Result fresh l}) (hr : 0 ≤ rate)
    (hcap : 0 ≤ cap) (hp0 : 0 ≤ p) (hp1 : p ≤ 1) {Q : List EntryVal → Prop} {q : ℝ} (hf : Rng.Hits B fresh Q q)
    (hq0 : 0 ≤ q) (hq1 : q ≤ 1) {st : State} (h : Reachable {l | Rng.Result fresh l} st) :
    Rng.Hits B (step n T rate cap (propose p fresh L) st)
      (fun st' => ∃ l, Rng.Result fresh l ∧ Q l ∧ st'.gates = st.gates ++ l) (p / 2 * q * Real.exp (-cap)) := by
  have hb : 0 ≤ min (st.beta + rate) cap := le_min (by linarith [h.nonneg]) hcap
  have he1 : Real.exp (-cap) ≤ 1 := Real.exp_le_one_iff.mpr (by linarith)
  unfold step
  refine (propose_hits hf hq0 hq1 hp0 hp1 L st.gates).bind (Real.exp_nonneg _) he1 ?_ fun new _ => ?_
  · rintro _ - ⟨l, hl, hQ, rfl⟩
    have hc : Real.exp (-cap) ≤ min 1 (Real.exp (-min (st.beta + rate) cap *
        (cost n T (st.gates ++ l) - cost n T st.gates))) := by
      refine le_min he1 (Real.exp_le_exp.mpr ?_)
      have c1 := h.layered.cost hT hφ
      have c2 := (h.layered.append (.single hl)).cost hT hφ
      have : min (st.beta + rate) cap * (cost n T (st.gates ++ l) - cost n T st.gates) ≤ cap * 1 := by
        refine (mul_le_mul_of_nonneg_left (show _ ≤ (1 : ℝ) by linarith) hb).trans ?_
        gcongr
        exact min_le_right _ _
      linarith
    have hs := Rng.Hits.interval (B := B) (x := 0) (y := Real.exp (-cap)) le_rfl (Real.exp_nonneg _) he1
    rw [sub_zero] at hs
    rw [show Real.exp (-cap) = Real.exp (-cap) * 1 by ring]
    refine hs.bind zero_le_one le_rfl (fun u _ hu => ?_) fun u _ => ?_
    · rw [if_pos (hu.2.trans_le hc)]
      exact Rng.Hits.pure ⟨l, hl, hQ, rfl⟩
    · split_ifs <;> exact Rng.Total.pure _
  · refine Rng.Total.bind Rng.Total.randomSample fun u _ => ?_
    split_ifs <;> exact Rng.Total.pure _

/-- Further steps do no harm. -/
theorem wins_succ (hf : Source B n L fresh) (hr : 0 ≤ rate) (hcap : 0 ≤ cap) (hp0 : 0 ≤ p) (hp1 : p ≤ 1) {k : ℕ} {x : ℝ}
    (h0 : 0 ≤ x) (h1 : x ≤ 1) (h : ∀ st, Reachable {l | Rng.Result fresh l} st →
      Wins B n T threshold rate cap (propose p fresh L) k st x) {st : State}
    (hst : Reachable {l | Rng.Result fresh l} st) : Wins B n T threshold rate cap (propose p fresh L) (k + 1) st x := by
  by_cases hg : GoodEnough threshold (cost n T st.gates)
  · exact (wins_good hg).mono h1
  · intro S y hy0 hy1 hS
    exact ((step_total hf.total hp0 hp1 L st).use (mul_nonneg h0 hy0) (mul_le_one₀ h1 hy0 hy1) fun st' hst' =>
      h st' (hst.step_result hf.layers hr hcap hst') S y hy0 hy1 hS).trans (measure_mono (after_step hg))

theorem wins_le (hf : Source B n L fresh) (hr : 0 ≤ rate) (hcap : 0 ≤ cap) (hp0 : 0 ≤ p) (hp1 : p ≤ 1) {k k' : ℕ}
    (hk : k ≤ k') {x : ℝ} (h0 : 0 ≤ x) (h1 : x ≤ 1) (h : ∀ st, Reachable {l | Rng.Result fresh l} st →
      Wins B n T threshold rate cap (propose p fresh L) k st x) :
    ∀ st, Reachable {l | Rng.Result fresh l} st → Wins B n T threshold rate cap (propose p fresh L) k' st x := by
  induction k', hk using Nat.le_induction with
  | base => exact h
  | succ k' _ ih => exact fun st hst => wins_succ hf hr hcap hp0 hp1 h0 h1 ih hst

/-- Following, approximately, a word that leads to the goal. -/
theorem wins_word (hT : T ∈ unitaryGroup (Fin (2 ^ n)) ℂ) (hf : Source B n L fresh) (hr : 0 ≤ rate) (hcap : 0 ≤ cap)
    (hp0 : 0 ≤ p) (hp1 : p ≤ 1) {k : ℕ} {x c ε : ℝ} (h0 : 0 ≤ x) (h1 : x ≤ 1)
    (hx : ∀ st, Reachable {l | Rng.Result fresh l} st → Wins B n T threshold rate cap (propose p fresh L) k st x)
    (hc0 : 0 ≤ c) (hc1 : c ≤ 1) (ws : List (List EntryVal))
    (hc : ∀ l ∈ ws, ∃ q : ℝ, 0 ≤ q ∧ q ≤ 1 ∧ Rng.Hits B fresh (NearCircuit n ε l) q ∧ c ≤ p / 2 * q * Real.exp (-cap))
    {st : State} (hst : Reachable {l | Rng.Result fresh l} st)
    (hg : ∀ ls, List.Forall₂ (NearCircuit n ε) ws ls → (∀ l ∈ ls, Rng.Result fresh l) →
      GoodEnough threshold (cost n T (st.gates ++ ls.flatten))) :
    Wins B n T threshold rate cap (propose p fresh L) (k + ws.length) st (x + c ^ ws.length * (1 - x)) := by
  induction ws generalizing st with
  | nil =>
    refine (wins_good ?_).mono (le_of_eq (by simp))
    simpa using hg [] .nil (by simp)
  | cons l ws ih =>
    have hpow : c ^ ws.length ≤ 1 := pow_le_one₀ hc0 hc1
    have hpow0 : 0 ≤ c ^ ws.length := pow_nonneg hc0 _
    by_cases hgood : GoodEnough threshold (cost n T st.gates)
    · refine (wins_good hgood).mono ?_
      have : c ^ (l :: ws).length ≤ 1 := pow_le_one₀ hc0 hc1
      nlinarith
    obtain ⟨q, hq0, hq1, hq, hcq⟩ := hc l List.mem_cons_self
    have hs := (step_hits hT hf.layers hr hcap hp0 hp1 hq hq0 hq1 hst).mono (Q' := fun st' => ∃ l', Rng.Result fresh l' ∧
      NearCircuit n ε l l' ∧ st'.gates = st.gates ++ l') (fun _ _ h => h) hcq
    intro S y hy0 hy1 hS
    have hz : x ≤ x + c ^ ws.length * (1 - x) := by nlinarith
    have hz1 : x + c ^ ws.length * (1 - x) ≤ 1 := by nlinarith
    have h2 := hs.use (S := GoodEnd n T threshold rate cap (propose p fresh L) S (k + ws.length)) (x := x * y)
      (y := (x + c ^ ws.length * (1 - x)) * y) (mul_nonneg h0 hy0) (mul_le_mul_of_nonneg_right hz hy0)
      (mul_le_one₀ hz1 hy0 hy1)
      (fun st' hst' => wins_le hf hr hcap hp0 hp1 (Nat.le_add_right k _) h0 h1 hx st'
        (hst.step_result hf.layers hr hcap hst') S y hy0 hy1 hS)
      (fun st' hst' => by
        rintro ⟨l', hl', hn, e⟩
        refine ih (fun l hl => hc l (List.mem_cons_of_mem _ hl)) (hst.step_result hf.layers hr hcap hst')
          (fun ls hls hr' => ?_) S y hy0 hy1 hS
        have := hg (l' :: ls) (.cons hn hls) (by
          intro l2 hl2
          rcases List.mem_cons.mp hl2 with rfl | hl2
          exacts [hl', hr' l2 hl2])
        rw [e]
        simpa [List.append_assoc] using this)
    refine le_trans (ENNReal.ofReal_le_ofReal (le_of_eq ?_)) (h2.trans (measure_mono (after_step hgood)))
    rw [List.length_cons, pow_succ]
    ring

theorem near_append {ε ε' : ℝ} {g g' l l' : List EntryVal}
    (hg : circuit n g' ∈ unitaryGroup (Fin (2 ^ n)) ℂ) (hl : circuit n l ∈ unitaryGroup (Fin (2 ^ n)) ℂ)
    (h : NearCircuit n ε g g') (h' : NearCircuit n ε' l l') : NearCircuit n (ε + ε') (g ++ l) (g' ++ l') := by
  obtain ⟨c, hc, h⟩ := h
  obtain ⟨c', hc', h'⟩ := h'
  refine ⟨c' * c, by rw [norm_mul, hc, hc', mul_one], ?_⟩
  rw [circuit_append, circuit_append]
  have e : circuit n l' * circuit n g' - (c' * c) • (circuit n l * circuit n g) =
      (circuit n l' - c' • circuit n l) * circuit n g' + c' • (circuit n l * (circuit n g' - c • circuit n g)) := by
    simp only [sub_mul, mul_sub, smul_sub, Matrix.smul_mul, Matrix.mul_smul, mul_smul]
    abel
  rw [e]
  refine (norm_add_le _ _).trans ?_
  rw [norm_mul_unitary hg, norm_smul, hc', one_mul, norm_unitary_mul hl]
  linarith

theorem near_flatten (hφ : LayerOk n L {l | Rng.Result fresh l}) {ε : ℝ} {ws ls : List (List EntryVal)}
    (h : List.Forall₂ (NearCircuit n ε) ws ls) (hw : ∀ l ∈ ws, Rng.Result fresh l) (hl : ∀ l ∈ ls, Rng.Result fresh l) :
    NearCircuit n (ws.length * ε) ws.flatten ls.flatten := by
  induction h with
  | nil => exact ⟨1, norm_one, by simp⟩
  | @cons w l ws ls h1 h2 ih =>
    have h3 := ih (fun x hx => hw x (List.mem_cons_of_mem _ hx)) (fun x hx => hl x (List.mem_cons_of_mem _ hx))
    have h4 := near_append ((Layered.single (hl l List.mem_cons_self)).unitary hφ)
      (Layered.unitary hφ ⟨ws, rfl, fun x hx => hw x (List.mem_cons_of_mem _ hx)⟩) h1 h3
    rw [List.flatten_cons, List.flatten_cons, List.length_cons]
    push_cast
    rw [add_mul, one_mul, add_comm ((ws.length : ℝ) * ε)]
    exact h4

/-- The cost depends continuously on the gates. -/
theorem cost_near (hT : T ∈ unitaryGroup (Fin (2 ^ n)) ℂ) {ε : ℝ} {g g' : List EntryVal} (h : NearCircuit n ε g g') :
    cost n T g' ≤ cost n T g + ε := by
  obtain ⟨c, hc, h⟩ := h
  have h1 := overlap_sub_le (Nat.two_pow_pos n) hT (A := circuit n g') (B := c • circuit n g)
  rw [overlap_smul_right hc] at h1
  unfold cost
  linarith

theorem near_refl (n : ℕ) (g : List EntryVal) : NearCircuit n 0 g g := ⟨1, norm_one, by simp⟩

/-- Words that are better than required are good enough even when they are followed only approximately. -/
theorem exists_tolerance (hφ : LayerOk n L {l | Rng.Result fresh l}) {Ws : Finset (List (List EntryVal))} {x y : ℝ}
    (h1 : ∀ ws ∈ Ws, ∀ l ∈ ws, Rng.Result fresh l) (hxy : x < y) :
    ∃ ε > 0, ∀ (T : Matrix (Fin (2 ^ n)) (Fin (2 ^ n)) ℂ) (g : List EntryVal) (ws : List (List EntryVal)),
      T ∈ unitaryGroup (Fin (2 ^ n)) ℂ → ws ∈ Ws → Layered {l | Rng.Result fresh l} g →
      cost n T (g ++ ws.flatten) < x → ∀ ls, List.Forall₂ (NearCircuit n ε) ws ls → (∀ l ∈ ls, Rng.Result fresh l) →
        0 ≤ cost n T (g ++ ls.flatten) ∧ cost n T (g ++ ls.flatten) < y := by
  set K := Ws.sup List.length + 1
  refine ⟨(y - x) / K, div_pos (by linarith) (by positivity), ?_⟩
  intro T g ws hT hws hg hc ls hls hr
  have hlen : ws.length ≤ K := (Finset.le_sup (f := List.length) hws).trans (by omega)
  have h2 := near_append (hg.unitary hφ) (Layered.unitary hφ ⟨ws, rfl, h1 ws hws⟩) (near_refl n g) (near_flatten hφ hls (h1 ws hws) hr)
  have h3 := cost_near hT h2
  have h4 : (ws.length : ℝ) * ((y - x) / K) ≤ y - x := by
    rw [mul_div_assoc', div_le_iff₀ (by positivity), mul_comm]
    exact mul_le_mul_of_nonneg_left (by exact_mod_cast hlen) (by linarith)
  refine ⟨((hg.append ⟨ls, rfl, hr⟩).cost hT hφ).1, by linarith⟩

/-- If finitely many words lead to the goal, even when they are followed only approximately, then the goal is reached
with a probability that tends to one exponentially. -/
theorem wins_of_words (hf : Source B n L fresh) (hcap : 0 ≤ cap) (hp0 : 0 < p) (hp1 : p ≤ 1)
    {Ws : Finset (List (List EntryVal))} (h1 : ∀ ws ∈ Ws, ∀ l ∈ ws, Rng.Result fresh l) {ε : ℝ} (hε : 0 < ε) :
    ∃ (δ : ℝ) (K : ℕ), 0 < δ ∧ δ ≤ 1 ∧ 0 < K ∧ ∀ (T : Matrix (Fin (2 ^ n)) (Fin (2 ^ n)) ℂ) (threshold : Option ℝ),
      T ∈ unitaryGroup (Fin (2 ^ n)) ℂ →
      (∀ g, Layered {l | Rng.Result fresh l} g → ∃ ws ∈ Ws, ∀ ls, List.Forall₂ (NearCircuit n ε) ws ls →
        (∀ l ∈ ls, Rng.Result fresh l) → GoodEnough threshold (cost n T (g ++ ls.flatten))) →
      ∀ rate, 0 ≤ rate → ∀ m st, Reachable {l | Rng.Result fresh l} st →
        Wins B n T threshold rate cap (propose p fresh L) m st (1 - (1 - δ) ^ (m / K)) := by
  classical
  have he0 := Real.exp_pos (-cap)
  have he1 : Real.exp (-cap) ≤ 1 := Real.exp_le_one_iff.mpr (by linarith)
  obtain ⟨c, hc0, hc1, hc⟩ : ∃ c : ℝ, 0 < c ∧ c ≤ 1 ∧ ∀ ws ∈ Ws, ∀ l ∈ ws, ∃ q : ℝ, 0 ≤ q ∧ q ≤ 1 ∧
      Rng.Hits B fresh (NearCircuit n ε l) q ∧ c ≤ p / 2 * q * Real.exp (-cap) := by
    set X : Finset (List EntryVal) := Ws.biUnion List.toFinset
    have hX : ∀ l ∈ X, Rng.Result fresh l := by
      intro l hl
      obtain ⟨ws, hws, hl⟩ := Finset.mem_biUnion.mp hl
      exact h1 ws hws l (List.mem_toFinset.mp hl)
    have hmem : ∀ ws ∈ Ws, ∀ l ∈ ws, l ∈ X := fun ws hws l hl =>
      Finset.mem_biUnion.mpr ⟨ws, hws, List.mem_toFinset.mpr hl⟩
    have hq : ∀ l ∈ X, ∃ q : ℝ, 0 < q ∧ q ≤ 1 ∧ Rng.Hits B fresh (NearCircuit n ε l) q := fun l hl =>
      hf.hits l (hX l hl) ε hε
    choose! q hq0 hq1 hq using hq
    rcases X.eq_empty_or_nonempty with he | hne
    · refine ⟨1, one_pos, le_rfl, fun ws hws l hl => ?_⟩
      have := hmem ws hws l hl
      rw [he] at this
      simp at this
    · obtain ⟨l0, hl0, hmin⟩ := Finset.exists_min_image X q hne
      have hq00 := hq0 l0 hl0
      refine ⟨p / 2 * q l0 * Real.exp (-cap), by positivity, ?_, fun ws hws l hl => ?_⟩
      · exact mul_le_one₀ (mul_le_one₀ (by linarith) hq00.le (hq1 l0 hl0)) he0.le he1
      · have hl' := hmem ws hws l hl
        refine ⟨q l, (hq0 l hl').le, hq1 l hl', hq l hl', ?_⟩
        have := hmin l hl'
        gcongr
  set K := Ws.sup List.length + 1 with hK
  have hcK : c ^ K ≤ 1 := pow_le_one₀ hc0.le hc1
  have hcK0 : 0 < c ^ K := pow_pos hc0 _
  refine ⟨c ^ K, K, hcK0, hcK, by omega, fun T threshold hT h2 rate hr m st hst => ?_⟩
  have hb : ∀ q : ℕ, 0 ≤ (1 - c ^ K) ^ q ∧ (1 - c ^ K) ^ q ≤ 1 := fun q =>
    ⟨pow_nonneg (by linarith) _, pow_le_one₀ (by linarith) (by linarith)⟩
  have key : ∀ q st, Reachable {l | Rng.Result fresh l} st →
      Wins B n T threshold rate cap (propose p fresh L) (q * K) st (1 - (1 - c ^ K) ^ q) := by
    intro q
    induction q with
    | zero => intro st _; simpa using wins_zero
    | succ q ih =>
      intro st hst
      obtain ⟨ws, hws, hg⟩ := h2 st.gates hst.layered
      have hlen : ws.length ≤ K := (Finset.le_sup (f := List.length) hws).trans (by omega)
      have h3 := wins_word (k := q * K + (K - ws.length)) (x := 1 - (1 - c ^ K) ^ q) hT hf hr hcap hp0.le hp1
        (by linarith [(hb q).2]) (by linarith [(hb q).1])
        (wins_le hf hr hcap hp0.le hp1 (Nat.le_add_right _ _) (by linarith [(hb q).2]) (by linarith [(hb q).1]) ih)
        hc0.le hc1 ws (hc ws hws) hst hg
      rw [show q * K + (K - ws.length) + ws.length = (q + 1) * K by rw [add_mul, one_mul]; omega] at h3
      refine h3.mono ?_
      have h4 : c ^ K ≤ c ^ ws.length := pow_le_pow_of_le_one hc0.le hc1 hlen
      have := (hb q).1
      rw [pow_succ (1 - c ^ K) q]
      nlinarith
  exact wins_le hf hr hcap hp0.le hp1 (Nat.div_mul_le_self m K) (by linarith [(hb (m / K)).2])
    (by linarith [(hb (m / K)).1]) (key (m / K)) st hst

/-- If some sequence of possible layers is better than required, the goal is reached with a probability that tends to
one exponentially. -/
theorem wins_exponential (hT : T ∈ unitaryGroup (Fin (2 ^ n)) ℂ) (hf : Source B n L fresh) (hcap : 0 ≤ cap)
    (hp0 : 0 < p) (hp1 : p ≤ 1) {w : List EntryVal} (hw : Layered {l | Rng.Result fresh l} w)
    (hgood : cost n T w < allowed threshold) :
    ∃ (δ : ℝ) (K : ℕ), 0 < δ ∧ δ ≤ 1 ∧ 0 < K ∧ ∀ rate, 0 ≤ rate → ∀ m st, Reachable {l | Rng.Result fresh l} st →
      Wins B n T threshold rate cap (propose p fresh L) m st (1 - (1 - δ) ^ (m / K)) := by
  obtain ⟨x, hx1, hx2⟩ := exists_between hgood
  obtain ⟨Ws, h1, h2⟩ := exists_words_lt hT hf.layers hw hx1
  obtain ⟨ε, hε, h3⟩ := exists_tolerance hf.layers h1 hx2
  obtain ⟨δ, K, h4, h5, h6, h7⟩ := wins_of_words hf hcap hp0 hp1 h1 hε
  refine ⟨δ, K, h4, h5, h6, h7 T threshold hT fun g hg => ?_⟩
  obtain ⟨ws, hws, hlt⟩ := h2 g hg
  refine ⟨ws, hws, fun ls hls hr => ?_⟩
  obtain ⟨h8, h9⟩ := h3 T g ws hT hws hg hlt ls hls hr
  exact goodEnough_of_le h8 h9.le

end Metropolis

end Stoq
