import Verif.Proofs.ApartAlgos
import Verif.Props.Continuous
import Verif.Spec.Several

/-! # Searches for all targets, and several searches in a row -/

namespace Stoq

open Matrix MeasureTheory Compiler
open scoped Matrix.Norms.L2Operator

namespace Metropolis

variable {B n L : ℕ} {threshold : Option ℝ} {rate cap p : ℝ} {P : Set (List EntryVal)} {fresh : PyM Rng (List EntryVal)}

/-- With universal layers, finitely many sequences of layers suffice to get from everywhere to every target. -/
theorem exists_words_all (hφ : LayerOk n L P)
    (hU : ∀ T ∈ unitaryGroup (Fin (2 ^ n)) ℂ, ∀ ε > 0, ∃ w, Layered P w ∧ cost n T w < ε) {x : ℝ} (hx : 0 < x) :
    ∃ Ws : Finset (List (List EntryVal)), (∀ ws ∈ Ws, ∀ l ∈ ws, l ∈ P) ∧
      ∀ T ∈ unitaryGroup (Fin (2 ^ n)) ℂ, ∀ g, Layered P g → ∃ ws ∈ Ws, cost n T (g ++ ws.flatten) < x := by
  classical
  have htb : TotallyBounded {U : Matrix (Fin (2 ^ n)) (Fin (2 ^ n)) ℂ | U ∈ unitaryGroup (Fin (2 ^ n)) ℂ} :=
    compact_unit_ball.totallyBounded.subset fun U hU => by
      rw [mem_closedBall_zero_iff]
      exact norm_le_one_of_unitary hU
  obtain ⟨t, ht1, ht2, ht3⟩ := Metric.finite_approx_of_totallyBounded htb (x / 2) (by positivity)
  have hword : ∀ V ∈ t, ∃ ws : List (List EntryVal), (∀ l ∈ ws, l ∈ P) ∧ cost n V ws.flatten < x / 2 := by
    intro V hV
    obtain ⟨_, ⟨ws, rfl, h⟩, h'⟩ := hU V (ht1 hV) (x / 2) (by positivity)
    exact ⟨ws, h, h'⟩
  choose! f hf using hword
  refine ⟨ht2.toFinset.image f, ?_, fun T hT g hg => ?_⟩
  · intro ws hws
    obtain ⟨V, hV, rfl⟩ := Finset.mem_image.mp hws
    exact (hf V (ht2.mem_toFinset.mp hV)).1
  · have hG := hg.unitary hφ
    have hG' : (circuit n g)ᴴ ∈ unitaryGroup (Fin (2 ^ n)) ℂ := Unitary.star_mem hG
    have hS : T * (circuit n g)ᴴ ∈ unitaryGroup (Fin (2 ^ n)) ℂ := mul_mem hT hG'
    obtain ⟨V, hV, hlt⟩ := Set.mem_iUnion₂.mp (ht3 hS)
    refine ⟨f V, Finset.mem_image_of_mem f (ht2.mem_toFinset.mpr hV), ?_⟩
    rw [Metric.mem_ball, dist_eq_norm] at hlt
    obtain ⟨h1, h2⟩ := hf V hV
    have hW : circuit n (f V).flatten ∈ unitaryGroup (Fin (2 ^ n)) ℂ := Layered.unitary hφ ⟨f V, rfl, h1⟩
    have h3 := overlap_sub_le (Nat.two_pow_pos n) hW (A := T * (circuit n g)ᴴ) (B := V)
    have h4 : overlap T (circuit n (f V).flatten * circuit n g) =
        overlap (T * (circuit n g)ᴴ) (circuit n (f V).flatten) := by
      rw [← overlap_mul_right (A := T * (circuit n g)ᴴ) (B := circuit n (f V).flatten) hG, Matrix.mul_assoc T,
        show (circuit n g)ᴴ * circuit n g = 1 from Unitary.star_mul_self_of_mem hG, mul_one]
    unfold cost at h2 ⊢
    rw [circuit_append, h4]
    rw [overlap_comm _ V, overlap_comm _ (T * (circuit n g)ᴴ)] at h3
    linarith

/-- With universal layers the goal is reached with a probability that tends to one exponentially, at the same rate for
all targets. -/
theorem wins_all (hf : Source B n L fresh)
    (hU : ∀ T ∈ unitaryGroup (Fin (2 ^ n)) ℂ, ∀ ε > 0, ∃ w, Layered {l | Rng.Result fresh l} w ∧ cost n T w < ε)
    (hcap : 0 ≤ cap) (hp0 : 0 < p) (hp1 : p ≤ 1) (hth : 0 < allowed threshold) :
    ∃ (δ : ℝ) (K : ℕ), 0 < δ ∧ δ ≤ 1 ∧ 0 < K ∧ ∀ T ∈ unitaryGroup (Fin (2 ^ n)) ℂ, ∀ rate, 0 ≤ rate → ∀ m st,
      Reachable {l | Rng.Result fresh l} st →
        Wins B n T threshold rate cap (propose p fresh L) m st (1 - (1 - δ) ^ (m / K)) := by
  obtain ⟨Ws, h1, h2⟩ := exists_words_all hf.layers hU (half_pos hth)
  obtain ⟨ε, hε, h3⟩ := exists_tolerance hf.layers h1 (half_lt_self hth)
  obtain ⟨δ, K, h4, h5, h6, h7⟩ := wins_of_words hf hcap hp0 hp1 h1 hε
  refine ⟨δ, K, h4, h5, h6, fun T hT => h7 T threshold hT fun g hg => ?_⟩
  obtain ⟨ws, hws, hlt⟩ := h2 T hT g hg
  refine ⟨ws, hws, fun ls hls hr => ?_⟩
  obtain ⟨h8, h9⟩ := h3 T g ws hT hws hg hlt ls hls hr
  exact goodEnough_of_le h8 h9.le

/-- The tapes on which `k` searches in a row succeed. -/
def AllWin (n : ℕ) (threshold : Option ℝ) (rate cap : ℝ) (proposal : List EntryVal → PyM Rng (List EntryVal)) (m : ℕ)
    (next : List (List EntryVal) → Matrix (Fin (2 ^ n)) (Fin (2 ^ n)) ℂ) :
    ℕ → List (List EntryVal) → ℝ → Set Rng.Tape
  | 0, _, _ => Set.univ
  | k + 1, found, b => GoodEnd n (next found) threshold rate cap proposal (fun st =>
      {t | 0 ≤ st.beta → t ∈ AllWin n threshold rate cap proposal m next k (found ++ [st.gates]) st.beta}) m ⟨[], b⟩

theorem allWin_prob {proposal : List EntryVal → PyM Rng (List EntryVal)} {m : ℕ} {x : ℝ} (hx0 : 0 ≤ x) (hx1 : x ≤ 1)
    (h : ∀ T ∈ unitaryGroup (Fin (2 ^ n)) ℂ, ∀ b, 0 ≤ b → Wins B n T threshold rate cap proposal m ⟨[], b⟩ x)
    {next : List (List EntryVal) → Matrix (Fin (2 ^ n)) (Fin (2 ^ n)) ℂ}
    (hnext : ∀ found, next found ∈ unitaryGroup (Fin (2 ^ n)) ℂ) (k : ℕ) (found : List (List EntryVal)) {b : ℝ}
    (hb : 0 ≤ b) :
    ENNReal.ofReal (x ^ k) ≤ Rng.tapes B (AllWin n threshold rate cap proposal m next k found b) := by
  induction k generalizing found b with
  | zero => simp [AllWin]
  | succ k ih =>
    rw [AllWin, pow_succ']
    refine h _ (hnext found) b hb _ (x ^ k) (pow_nonneg hx0 _) (pow_le_one₀ hx0 hx1) fun st => ?_
    by_cases hs : 0 ≤ st.beta
    · exact (ih (found ++ [st.gates]) hs).trans (measure_mono fun t ht _ => ht)
    · have : {t | 0 ≤ st.beta → t ∈ AllWin n threshold rate cap proposal m next k (found ++ [st.gates]) st.beta} =
          Set.univ := Set.eq_univ_of_forall fun t h' => absurd h' hs
      rw [this, measure_univ]
      exact ENNReal.ofReal_le_one.mpr (pow_le_one₀ hx0 hx1)

theorem heat_nonneg {b : ℝ} (hr : 0 ≤ rate) (hcap : 0 ≤ cap) (hb : 0 ≤ b) (k : ℕ) : 0 ≤ (heat rate cap)^[k] b := by
  induction k with
  | zero => exact hb
  | succ k ih =>
    rw [Function.iterate_succ_apply']
    exact le_min (by linarith) hcap

end Metropolis

/-- The state between two searches with the compiler. -/
structure Between (C : Compiler) (w : World) (b : ℝ) : Prop where
  wf : w.WF 0
  exact : ∀ x ∈ w.entries, x.toVal.Exact
  beta : w.annealing C = some b
  nonneg : 0 ≤ b

theorem between_of_post {C : Compiler} {G : EntryVal → Prop} {prop : List EntryVal → PyM Rng (List EntryVal)}
    {target : Unitary} {threshold : Option ℝ} {m : ℤ} {M : PyM World CompilerResult} {w : World} {b : ℝ}
    (h : Between C w b) (hr : 0 ≤ C.annealingRate) (hcap : C.maxBeta = ((2 : ℝ) ^ C.dimension) ^ 2)
    (hg : Gives w.seqs.length EntryVal.Exact CompilerResult.sequence M)
    (hp : CompilePost 0 G prop C target threshold m w b (M w).1 (M w).2) {b' : ℝ}
    (hb' : (M w).2.annealing C = some b') : Between C (M w).2 b' := by
  refine ⟨hp.wf, (hg w (Apart.start w)).1.vals h.exact, hb', ?_⟩
  obtain ⟨k, hk⟩ := hp.beta
  have e : (M w).2.annealing C = some ((Metropolis.heat C.annealingRate C.maxBeta)^[k] b) := hk
  rw [hb'] at e
  rw [Option.some.inj e]
  exact Metropolis.heat_nonneg hr (by rw [hcap]; positivity) h.nonneg k

theorem allFound_of_tape {n : ℕ} {C : Compiler} {threshold : Option ℝ} {m : ℕ}
    {prop : List EntryVal → PyM Rng (List EntryVal)} {M : Unitary → PyM World CompilerResult}
    (h : ∀ target, target.Exact (2 ^ n) → ∀ w b, Between C w b →
      FollowsWalk n C target threshold m prop b w (M target w) ∧
      ∀ b', (M target w).2.annealing C = some b' → Between C (M target w).2 b')
    {next : List (List EntryVal) → Unitary} (hnext : ∀ found, (next found).Exact (2 ^ n)) (k : ℕ)
    (found : List (List EntryVal)) {w : World} {b : ℝ} (hw : Between C w b)
    (ht : w.rng.rest ∈ Metropolis.AllWin n threshold C.annealingRate (((2 : ℝ) ^ 2 ^ n) ^ 2) prop m
      (fun found => (next found).matrix.toMatrix (2 ^ n)) k found b) :
    AllFound n threshold M next k found w := by
  induction k generalizing found w b with
  | zero => trivial
  | succ k ih =>
    obtain ⟨hf, hbt⟩ := h (next found) (hnext found) w b hw
    obtain ⟨tr, r', hrun, hgood, hrest⟩ := ht w.rng rfl
    unfold FollowsWalk at hf
    rw [Int.toNat_natCast, hrun] at hf
    obtain ⟨hrng, R, hR, -, ⟨undo, hv⟩, hbeta, -⟩ := hf
    have hg : (tr.getLast?.getD ⟨[], b⟩).gates = (tr.map Metropolis.State.gates).getLast?.getD [] := by
      rw [List.getLast?_map]
      cases tr.getLast? <;> rfl
    refine ⟨(tr.getLast?.getD ⟨[], b⟩).gates, ⟨R, _, hR, hv, rfl⟩, ?_, ?_⟩
    · rw [hg]; exact hgood
    · refine ih (found ++ [(tr.getLast?.getD ⟨[], b⟩).gates]) (hbt _ hbeta) ?_
      rw [hrng]
      exact hrest (hbt _ hbeta).nonneg

theorem allFound_of_wins {B n : ℕ} {C : Compiler} {threshold : Option ℝ} {m : ℕ}
    {prop : List EntryVal → PyM Rng (List EntryVal)} {M : Unitary → PyM World CompilerResult}
    (h : ∀ target, target.Exact (2 ^ n) → ∀ w b, Between C w b →
      FollowsWalk n C target threshold m prop b w (M target w) ∧
      ∀ b', (M target w).2.annealing C = some b' → Between C (M target w).2 b')
    {next : List (List EntryVal) → Unitary} (hnext : ∀ found, (next found).Exact (2 ^ n)) {δ : ℝ} {q : ℕ} (hδ0 : 0 ≤ δ)
    (hδ : δ ≤ 1)
    (hw : ∀ T ∈ unitaryGroup (Fin (2 ^ n)) ℂ, ∀ b, 0 ≤ b → Metropolis.Wins B n T threshold C.annealingRate
      (((2 : ℝ) ^ 2 ^ n) ^ 2) prop m ⟨[], b⟩ (1 - (1 - δ) ^ q)) {w : World} {b : ℝ} (hb : Between C w b) (k : ℕ) :
    1 - ENNReal.ofReal (k * (1 - δ) ^ q) ≤ Rng.tapes B {t | AllFound n threshold M next k [] (w.reseed t)} := by
  have h0 : 0 ≤ (1 - δ) ^ q := pow_nonneg (by linarith) _
  have h1 : (1 - δ) ^ q ≤ 1 := pow_le_one₀ (by linarith) (by linarith)
  rw [← ENNReal.ofReal_one, ← ENNReal.ofReal_sub _ (by positivity)]
  have h2 : 1 - k * (1 - δ) ^ q ≤ (1 - (1 - δ) ^ q) ^ k := by
    have := one_add_mul_le_pow (a := -(1 - δ) ^ q) (by linarith) k
    rw [← sub_eq_add_neg] at this
    linarith
  refine (ENNReal.ofReal_le_ofReal h2).trans ((Metropolis.allWin_prob (by linarith) (by linarith) hw
    (fun found => (hnext found).unitary) k [] hb.nonneg).trans (measure_mono fun t ht => ?_))
  exact allFound_of_tape h hnext k [] (w := w.reseed t) ⟨hb.wf.reseed t, hb.exact, hb.beta, hb.nonneg⟩
    (by rw [show (w.reseed t).rng = Rng.start t from rfl, Rng.rest_start]; exact ht)

end Stoq
