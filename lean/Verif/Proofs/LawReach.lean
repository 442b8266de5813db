import Verif.Proofs.LawMetropolis
import Verif.Proofs.Recurrence
import Verif.Proofs.Drift
import Verif.Proofs.Sequence

/-! # The chain reaches every distance that gates can reach -/

namespace Stoq

open Matrix
open scoped Matrix.Norms.L2Operator

/-- The overlap with a unitary matrix changes by at most the distance of the matrices. -/
theorem overlap_sub_le {d : ℕ} (hd : 0 < d) {T A B : Matrix (Fin d) (Fin d) ℂ} (hT : T ∈ unitaryGroup (Fin d) ℂ) :
    overlap T B - overlap T A ≤ ‖A - B‖ := by
  unfold overlap
  have hdr : (0 : ℝ) < d := by exact_mod_cast hd
  have hT' : Tᴴ ∈ unitaryGroup (Fin d) ℂ := Unitary.star_mem hT
  have h1 : ‖(Tᴴ * B).trace‖ - ‖(Tᴴ * A).trace‖ ≤ ‖(Tᴴ * (B - A)).trace‖ := by
    rw [Matrix.mul_sub, Matrix.trace_sub]
    exact norm_sub_norm_le _ _
  have h2 := Unitary.norm_trace_le_norm (Tᴴ * (B - A))
  rw [norm_unitary_mul hT', norm_sub_rev] at h2
  rw [← sub_div, div_le_iff₀ hdr]
  linarith

namespace Metropolis

variable {n : ℕ} {T : Matrix (Fin (2 ^ n)) (Fin (2 ^ n)) ℂ} {threshold : Option ℝ} {rate cap p : ℝ} {L : ℕ}
  {φ : PMF (List EntryVal)} {P : Set (List EntryVal)}

/-- The probability that the run is not good enough at the end. -/
noncomputable def failP (n : ℕ) (T : Matrix (Fin (2 ^ n)) (Fin (2 ^ n)) ℂ) (threshold : Option ℝ) (rate cap : ℝ)
    (proposal : List EntryVal → PMF (List EntryVal)) : ℕ → State → ENNReal
  | 0, st => open Classical in if GoodEnough threshold (cost n T st.gates) then 0 else 1
  | k + 1, st => open Classical in
    if GoodEnough threshold (cost n T st.gates) then 0
    else ∑' st', stepLaw n T rate cap proposal st st' * failP n T threshold rate cap proposal k st'

theorem failP_eq (proposal : List EntryVal → PMF (List EntryVal)) (k : ℕ) (st : State) :
    (runLaw n T threshold rate cap proposal k st).toOuterMeasure
      {tr | ¬ GoodEnough threshold (cost n T ((tr.map State.gates).getLast?.getD st.gates))} =
      failP n T threshold rate cap proposal k st := by
  classical
  induction k generalizing st with
  | zero =>
    rw [runLaw, failP]
    change (PMF.pure _).toOuterMeasure _ = _
    rw [PMF.toOuterMeasure_pure_apply]
    simp
  | succ k ih =>
    rw [runLaw, failP]
    split
    · next h =>
      change (PMF.pure _).toOuterMeasure _ = _
      rw [PMF.toOuterMeasure_pure_apply, if_neg]
      simpa using h
    · next h =>
      change (PMF.bind _ _).toOuterMeasure _ = _
      rw [PMF.toOuterMeasure_bind_apply]
      refine tsum_congr fun st' => ?_
      congr 1
      change ((runLaw n T threshold rate cap proposal k st').map fun rest => st' :: rest).toOuterMeasure _ = _
      rw [PMF.toOuterMeasure_map_apply, ← ih]
      congr 1
      ext rest
      simp only [Set.mem_preimage, Set.mem_ofPred_eq, List.map_cons, List.getLast?_cons]
      rfl

theorem failP_good {proposal : List EntryVal → PMF (List EntryVal)} {k : ℕ} {st : State}
    (h : GoodEnough threshold (cost n T st.gates)) : failP n T threshold rate cap proposal k st = 0 := by
  classical
  cases k <;> rw [failP, if_pos h]

theorem failP_le_one (proposal : List EntryVal → PMF (List EntryVal)) (k : ℕ) (st : State) :
    failP n T threshold rate cap proposal k st ≤ 1 := by
  rw [← failP_eq]
  exact (PMF.toOuterMeasure_mono _ (Set.subset_univ _)).trans
    ((PMF.toOuterMeasure_apply_eq_one_iff _ _).mpr (Set.subset_univ _)).le

theorem failP_succ_le (proposal : List EntryVal → PMF (List EntryVal)) (k : ℕ) (st : State) :
    failP n T threshold rate cap proposal (k + 1) st ≤ failP n T threshold rate cap proposal k st := by
  classical
  induction k generalizing st with
  | zero =>
    by_cases h : GoodEnough threshold (cost n T st.gates)
    · rw [failP_good h]; exact zero_le
    · rw [show failP n T threshold rate cap proposal 0 st = 1 by rw [failP, if_neg h]]
      exact failP_le_one _ _ _
  | succ k ih =>
    rw [failP, failP.eq_2 (k := k)]
    split
    · exact le_rfl
    · exact ENNReal.tsum_le_tsum fun st' => by gcongr; exact ih st'

theorem failP_antitone (proposal : List EntryVal → PMF (List EntryVal)) {k k' : ℕ} (h : k ≤ k') (st : State) :
    failP n T threshold rate cap proposal k' st ≤ failP n T threshold rate cap proposal k st := by
  induction k', h using Nat.le_induction with
  | base => exact le_rfl
  | succ k' _ ih => exact (failP_succ_le proposal k' st).trans ih

/-- A mean of numbers up to `x`, one of which is smaller. -/
theorem tsum_le_of_atom {α : Type} (q : PMF α) (f : α → ENNReal) {x d c : ENNReal} (a : α) (hc : c ≤ q a) (hd : d ≤ 1)
    (hf : ∀ s ∈ q.support, f s ≤ x) (ha : f a ≤ x * (1 - d)) : ∑' s, q s * f s ≤ x * (1 - c * d) := by
  classical
  have h1 : ∑' s, q s * f s ≤ ∑' s, x * (q s * (1 - if s = a then d else 0)) := by
    refine ENNReal.tsum_le_tsum fun s => ?_
    by_cases hs : s = a
    · subst hs
      rw [if_pos rfl, mul_left_comm]
      gcongr
    · rw [if_neg hs, tsub_zero, mul_one, mul_comm]
      by_cases h0 : q s = 0
      · simp [h0]
      · gcongr
        exact hf s ((PMF.mem_support_iff _ _).mpr h0)
  rw [ENNReal.tsum_mul_left] at h1
  refine h1.trans ?_
  gcongr
  have h2 : ∑' s, q s * (1 - if s = a then d else 0) + q a * d = 1 := by
    have e : q a * d = ∑' s, if s = a then q s * d else 0 := by
      rw [tsum_eq_single a fun s hs => if_neg hs, if_pos rfl]
    rw [e, ← ENNReal.tsum_add]
    refine (tsum_congr fun s => ?_).trans q.tsum_coe
    split
    · rw [← mul_add, tsub_add_cancel_of_le hd, mul_one]
    · simp
  refine ENNReal.le_sub_of_add_le_right (ENNReal.mul_ne_top (ne_top_of_le_ne_top ENNReal.one_ne_top
    (hc.trans (q.coe_le_one a))) (ne_top_of_le_ne_top ENNReal.one_ne_top hd)) ?_
  refine le_trans ?_ h2.le
  gcongr

/-- What the chain needs to know of the new gates: they come in layers of `L` gates, a reversed layer is possible as
well, and the gates are unitary. -/
structure LayerOk (n L : ℕ) (P : Set (List EntryVal)) : Prop where
  length : ∀ l ∈ P, l.length = L
  reverse : ∀ l ∈ P, l.reverse ∈ P
  unitary : ∀ l ∈ P, circuit n l ∈ unitaryGroup (Fin (2 ^ n)) ℂ

/-- The gates are a sequence of layers. -/
def Layered (P : Set (List EntryVal)) (g : List EntryVal) : Prop :=
  ∃ ls : List (List EntryVal), g = ls.flatten ∧ ∀ l ∈ ls, l ∈ P

theorem Layered.append {g g' : List EntryVal} (h : Layered P g) (h' : Layered P g') : Layered P (g ++ g') := by
  obtain ⟨ls, rfl, h⟩ := h
  obtain ⟨ls', rfl, h'⟩ := h'
  refine ⟨ls ++ ls', (List.flatten_append).symm, fun l hl => ?_⟩
  rcases List.mem_append.mp hl with hl | hl
  exacts [h l hl, h' l hl]

theorem Layered.single {l : List EntryVal} (h : l ∈ P) : Layered P l :=
  ⟨[l], by simp, fun l' hl' => by rw [List.mem_singleton.mp hl']; exact h⟩

theorem Layered.nil : Layered P [] := ⟨[], rfl, by simp⟩

theorem Layered.drop (hφ : LayerOk n L P) {g : List EntryVal} (h : Layered P g) : Layered P (g.drop L) := by
  obtain ⟨ls, rfl, h⟩ := h
  cases ls with
  | nil => simpa using Layered.nil
  | cons l ls =>
    refine ⟨ls, ?_, fun l' hl' => h l' (List.mem_cons_of_mem _ hl')⟩
    rw [List.flatten_cons, ← hφ.length l (h l List.mem_cons_self), List.drop_left]

theorem Layered.take (hφ : LayerOk n L P) {g : List EntryVal} (h : Layered P g) :
    Layered P (g.take (g.length - L)) := by
  obtain ⟨ls, rfl, h⟩ := h
  rcases List.eq_nil_or_concat ls with rfl | ⟨ls, l, rfl⟩
  · simpa using Layered.nil
  · refine ⟨ls, ?_, fun l' hl' => h l' (by simp [hl'])⟩
    have : l.length = L := hφ.length l (h l (by simp))
    rw [List.concat_eq_append, List.flatten_append, List.flatten_singleton, List.length_append, this, Nat.add_sub_cancel,
      List.take_left]

theorem Layered.unitary (hφ : LayerOk n L P) {g : List EntryVal} (h : Layered P g) :
    circuit n g ∈ unitaryGroup (Fin (2 ^ n)) ℂ := by
  obtain ⟨ls, rfl, h⟩ := h
  induction ls with
  | nil => exact one_mem _
  | cons l ls ih =>
    rw [List.flatten_cons, circuit_append]
    exact mul_mem (ih fun l' hl' => h l' (List.mem_cons_of_mem _ hl')) (hφ.unitary l (h l List.mem_cons_self))

theorem Layered.cost (hT : T ∈ unitaryGroup (Fin (2 ^ n)) ℂ) (hφ : LayerOk n L P) {g : List EntryVal}
    (h : Layered P g) : 0 ≤ cost n T g ∧ cost n T g ≤ 1 := by
  unfold Metropolis.cost
  have h1 := overlap_le_one hT (h.unitary hφ)
  have h2 := overlap_nonneg T (circuit n g)
  constructor <;> linarith

theorem Layered.propose (hφ : LayerOk n L φ.support) {g new : List EntryVal} (h : Layered φ.support g)
    (hn : new ∈ (proposeLaw p φ L g).support) : Layered φ.support new := by
  obtain ⟨add, -, hn⟩ := (PMF.mem_support_bind_iff _ _ _).mp hn
  obtain ⟨front, -, hn⟩ := (PMF.mem_support_bind_iff _ _ _).mp hn
  cases add
  · have := (PMF.mem_support_pure_iff _ _).mp hn
    rw [this]
    cases front
    · exact h.take hφ
    · exact h.drop hφ
  · obtain ⟨l, hl, hn⟩ := (PMF.mem_support_bind_iff _ _ _).mp hn
    have := (PMF.mem_support_pure_iff _ _).mp hn
    rw [this]
    cases front
    · exact h.append (.single hl)
    · exact (Layered.single (hφ.reverse l hl)).append h

/-- The states of the chain. -/
structure Reachable (P : Set (List EntryVal)) (st : State) : Prop where
  layered : Layered P st.gates
  nonneg : 0 ≤ st.beta

theorem Reachable.step (hφ : LayerOk n L φ.support) (hr : 0 ≤ rate) (hcap : 0 ≤ cap) {st st' : State} (h : Reachable φ.support st)
    (h' : st' ∈ (stepLaw n T rate cap (proposeLaw p φ L) st).support) : Reachable φ.support st' := by
  obtain ⟨new, hn, h'⟩ := (PMF.mem_support_bind_iff _ _ _).mp h'
  obtain ⟨acc, -, h'⟩ := (PMF.mem_support_bind_iff _ _ _).mp h'
  have := (PMF.mem_support_pure_iff _ _).mp h'
  rw [this]
  refine ⟨?_, le_min (by linarith [h.nonneg]) hcap⟩
  simp only
  split
  · exact h.layered.propose hφ hn
  · exact h.layered

theorem le_bind_apply {α β : Type} (q : PMF α) (f : α → PMF β) (a : α) (b : β) : q a * f a b ≤ (q.bind f) b := by
  rw [PMF.bind_apply]
  exact ENNReal.le_tsum a

/-- The probability of appending a given layer. -/
theorem le_stepLaw (hT : T ∈ unitaryGroup (Fin (2 ^ n)) ℂ) (hφ : LayerOk n L φ.support) (hr : 0 ≤ rate) (hcap : 0 ≤ cap)
    (hp0 : 0 ≤ p) (hp1 : p ≤ 1) {st : State} (h : Reachable φ.support st) {l : List EntryVal} (hl : l ∈ φ.support) :
    ENNReal.ofReal (p * (1 / 2) * Real.exp (-cap)) * φ l ≤
      stepLaw n T rate cap (proposeLaw p φ L) st ⟨st.gates ++ l, min (st.beta + rate) cap⟩ := by
  have hb : 0 ≤ min (st.beta + rate) cap := le_min (by linarith [h.nonneg]) hcap
  have h1 : ENNReal.ofReal (p * (1 / 2)) * φ l ≤ proposeLaw p φ L st.gates (st.gates ++ l) := by
    have k1 := le_bind_apply (coin p) (fun add => (coin (1 / 2)).bind fun front =>
      if add then φ.bind fun new => PMF.pure (if front then new.reverse ++ st.gates else st.gates ++ new)
      else PMF.pure (if front then st.gates.drop L else st.gates.take (st.gates.length - L))) true (st.gates ++ l)
    have k2 := le_bind_apply (coin (1 / 2)) (fun front => if true then φ.bind fun new =>
      PMF.pure (if front then new.reverse ++ st.gates else st.gates ++ new)
      else PMF.pure (if front then st.gates.drop L else st.gates.take (st.gates.length - L))) false (st.gates ++ l)
    have k3 := le_bind_apply φ (fun new => PMF.pure (st.gates ++ new)) l (st.gates ++ l)
    rw [PMF.pure_apply, if_pos rfl, mul_one] at k3
    rw [coin_true hp0 hp1] at k1
    rw [coin_false (by norm_num) (by norm_num)] at k2
    rw [ENNReal.ofReal_mul hp0, mul_assoc]
    have e : (1 - 1 / 2 : ℝ) = 1 / 2 := by norm_num
    rw [e] at k2
    refine le_trans ?_ (k1.trans ?_)
    · gcongr
      refine le_trans ?_ k2
      gcongr
      simpa using k3
    · refine le_of_eq ?_
      rfl
  have hc : Real.exp (-cap) ≤ min 1 (Real.exp (-min (st.beta + rate) cap *
      (Metropolis.cost n T (st.gates ++ l) - Metropolis.cost n T st.gates))) := by
    refine le_min (Real.exp_le_one_iff.mpr (by linarith)) (Real.exp_le_exp.mpr ?_)
    have c1 := h.layered.cost hT hφ
    have c2 := (h.layered.append (.single hl)).cost hT hφ
    have : min (st.beta + rate) cap * (Metropolis.cost n T (st.gates ++ l) - Metropolis.cost n T st.gates) ≤ cap * 1 := by
      refine (mul_le_mul_of_nonneg_left (show _ ≤ (1 : ℝ) by linarith) hb).trans ?_
      gcongr
      exact min_le_right _ _
    linarith
  have k1 := le_bind_apply (proposeLaw p φ L st.gates) (fun new =>
    (coin (min 1 (Real.exp (-min (st.beta + rate) cap *
      (Metropolis.cost n T new - Metropolis.cost n T st.gates))))).bind fun acc =>
      PMF.pure (⟨if acc then new else st.gates, min (st.beta + rate) cap⟩ : State)) (st.gates ++ l)
      ⟨st.gates ++ l, min (st.beta + rate) cap⟩
  have k2 := le_bind_apply (coin (min 1 (Real.exp (-min (st.beta + rate) cap *
      (Metropolis.cost n T (st.gates ++ l) - Metropolis.cost n T st.gates))))) (fun acc =>
      PMF.pure (⟨if acc then st.gates ++ l else st.gates, min (st.beta + rate) cap⟩ : State)) true
      ⟨st.gates ++ l, min (st.beta + rate) cap⟩
  rw [coin_true (le_min zero_le_one (Real.exp_nonneg _)) (min_le_left _ _), if_pos rfl, PMF.pure_apply, if_pos rfl,
    mul_one] at k2
  refine le_trans ?_ (k1.trans (le_of_eq rfl))
  refine le_trans ?_ (mul_le_mul' h1 k2)
  rw [ENNReal.ofReal_mul (by positivity), mul_assoc, mul_comm (ENNReal.ofReal (Real.exp (-cap))), ← mul_assoc]
  gcongr

/-- Following a word that leads to the goal. -/
theorem failP_word (hT : T ∈ unitaryGroup (Fin (2 ^ n)) ℂ) (hφ : LayerOk n L φ.support) (hr : 0 ≤ rate) (hcap : 0 ≤ cap)
    (hp0 : 0 ≤ p) (hp1 : p ≤ 1) {k : ℕ} {x c : ENNReal}
    (hx : ∀ st, Reachable φ.support st → failP n T threshold rate cap (proposeLaw p φ L) k st ≤ x)
    (hc1 : c ≤ 1) (ws : List (List EntryVal)) (hws : ∀ l ∈ ws, l ∈ φ.support)
    (hc : ∀ l ∈ ws, c ≤ ENNReal.ofReal (p * (1 / 2) * Real.exp (-cap)) * φ l) {st : State}
    (hst : Reachable φ.support st) (hg : GoodEnough threshold (cost n T (st.gates ++ ws.flatten))) :
    failP n T threshold rate cap (proposeLaw p φ L) (k + ws.length) st ≤ x * (1 - c ^ ws.length) := by
  classical
  induction ws generalizing st with
  | nil =>
    rw [failP_good (by simpa using hg)]
    exact zero_le
  | cons l ws ih =>
    by_cases hgood : GoodEnough threshold (cost n T st.gates)
    · rw [failP_good hgood]
      exact zero_le
    rw [List.length_cons, ← add_assoc, failP, if_neg hgood, pow_succ']
    have hl := hws l List.mem_cons_self
    refine tsum_le_of_atom _ _ ⟨st.gates ++ l, min (st.beta + rate) cap⟩
      ((hc l List.mem_cons_self).trans (le_stepLaw hT hφ hr hcap hp0 hp1 hst hl)) (pow_le_one₀ zero_le hc1)
      (fun st' hst' => (failP_antitone _ (by omega) st').trans (hx st' (hst.step hφ hr hcap hst'))) ?_
    refine ih (fun l' hl' => hws l' (List.mem_cons_of_mem _ hl')) (fun l' hl' => hc l' (List.mem_cons_of_mem _ hl'))
      ⟨hst.layered.append (.single hl), le_min (by linarith [hst.nonneg]) hcap⟩ ?_
    simpa [List.append_assoc] using hg

theorem goodEnough_of_le {c : ℝ} (h0 : 0 ≤ c) (h : c ≤ allowed threshold) : GoodEnough threshold c := by
  cases threshold with
  | none => rw [GoodEnough, abs_of_nonneg h0]; exact h
  | some t => exact h

/-- If some sequence of layers has a cost below `x`, then finitely many sequences of layers suffice to get there from
everywhere. -/
theorem exists_words_lt (hT : T ∈ unitaryGroup (Fin (2 ^ n)) ℂ) (hφ : LayerOk n L P) {w : List EntryVal} {x : ℝ}
    (hw : Layered P w) (hgood : cost n T w < x) :
    ∃ Ws : Finset (List (List EntryVal)), (∀ ws ∈ Ws, ∀ l ∈ ws, l ∈ P) ∧
      ∀ g, Layered P g → ∃ ws ∈ Ws, cost n T (g ++ ws.flatten) < x := by
  classical
  set S : Set (Matrix (Fin (2 ^ n)) (Fin (2 ^ n)) ℂ) := {U | ∃ g, Layered P g ∧ circuit n g = U}
  obtain ⟨F, hF1, hF2, hF3⟩ := exists_finite_words (S := S) (W := circuit n w) (ε := x - cost n T w)
    (by rintro _ ⟨g, hg, rfl⟩; exact hg.unitary hφ)
    (by
      rintro _ ⟨g, hg, rfl⟩ _ ⟨g', hg', rfl⟩
      exact ⟨g' ++ g, hg'.append hg, circuit_append n g' g⟩)
    ⟨[], .nil, rfl⟩ ⟨w, hw, rfl⟩ (by linarith)
  have hword : ∀ V ∈ F, ∃ ws : List (List EntryVal), (∀ l ∈ ws, l ∈ P) ∧ circuit n ws.flatten = V := by
    intro V hV
    obtain ⟨_, ⟨ws, rfl, h⟩, h'⟩ := hF2 hV
    exact ⟨ws, h, h'⟩
  choose! f hf using hword
  refine ⟨hF1.toFinset.image f, ?_, fun g hg => ?_⟩
  · intro ws hws
    obtain ⟨V, hV, rfl⟩ := Finset.mem_image.mp hws
    exact (hf V (hF1.mem_toFinset.mp hV)).1
  · obtain ⟨V, hV, hlt⟩ := hF3 _ ⟨g, hg, rfl⟩
    refine ⟨f V, Finset.mem_image_of_mem f (hF1.mem_toFinset.mpr hV), ?_⟩
    have h1 := overlap_sub_le (B := circuit n w) (A := circuit n (g ++ (f V).flatten)) (by positivity) hT
    rw [circuit_append, (hf V hV).2] at h1
    unfold cost at hlt ⊢
    rw [circuit_append, (hf V hV).2]
    linarith

/-- If some sequence of layers is better than required, then finitely many sequences of layers suffice to get to a good
result from everywhere. -/
theorem exists_words (hT : T ∈ unitaryGroup (Fin (2 ^ n)) ℂ) (hφ : LayerOk n L P) {w : List EntryVal}
    (hw : Layered P w) (hgood : cost n T w < allowed threshold) :
    ∃ Ws : Finset (List (List EntryVal)), (∀ ws ∈ Ws, ∀ l ∈ ws, l ∈ P) ∧
      ∀ g, Layered P g → ∃ ws ∈ Ws, GoodEnough threshold (cost n T (g ++ ws.flatten)) := by
  obtain ⟨Ws, h1, h2⟩ := exists_words_lt hT hφ hw hgood
  refine ⟨Ws, h1, fun g hg => ?_⟩
  obtain ⟨ws, h3, h4⟩ := h2 g hg
  exact ⟨ws, h3, goodEnough_of_le ((hg.append ⟨ws, rfl, h1 ws h3⟩).cost hT hφ).1 h4.le⟩

/-- If finitely many sequences of layers suffice to get to a good result from everywhere, the probability not to have
reached one decreases exponentially. -/
theorem failP_of_words (hφ : LayerOk n L φ.support) (hcap : 0 ≤ cap) (hp0 : 0 < p) (hp1 : p ≤ 1)
    {Ws : Finset (List (List EntryVal))} (h1 : ∀ ws ∈ Ws, ∀ l ∈ ws, l ∈ φ.support) :
    ∃ (δ : ℝ) (K : ℕ), 0 < δ ∧ δ ≤ 1 ∧ 0 < K ∧ ∀ (T : Matrix (Fin (2 ^ n)) (Fin (2 ^ n)) ℂ) (threshold : Option ℝ),
      T ∈ unitaryGroup (Fin (2 ^ n)) ℂ →
      (∀ g, Layered φ.support g → ∃ ws ∈ Ws, GoodEnough threshold (cost n T (g ++ ws.flatten))) →
      ∀ rate, 0 ≤ rate → ∀ m st, Reachable φ.support st →
        failP n T threshold rate cap (proposeLaw p φ L) m st ≤ ENNReal.ofReal ((1 - δ) ^ (m / K)) := by
  classical
  set a := ENNReal.ofReal (p * (1 / 2) * Real.exp (-cap)) with ha
  have ha0 : a ≠ 0 := by
    rw [ha]; exact (ENNReal.ofReal_pos.mpr (by positivity)).ne'
  have ha1 : a ≤ 1 := by
    rw [ha]
    refine ENNReal.ofReal_le_one.mpr ?_
    have : Real.exp (-cap) ≤ 1 := Real.exp_le_one_iff.mpr (by linarith)
    have h0 := Real.exp_nonneg (-cap)
    nlinarith
  obtain ⟨c, hc0, hc1, hc⟩ : ∃ c : ENNReal, c ≠ 0 ∧ c ≤ 1 ∧ ∀ ws ∈ Ws, ∀ l ∈ ws, c ≤ a * φ l := by
    set X : Finset (List EntryVal) := Ws.biUnion List.toFinset
    have hX : ∀ l ∈ X, φ l ≠ 0 := by
      intro l hl
      obtain ⟨ws, hws, hl⟩ := Finset.mem_biUnion.mp hl
      exact (PMF.mem_support_iff _ _).mp (h1 ws hws l (List.mem_toFinset.mp hl))
    have hmem : ∀ ws ∈ Ws, ∀ l ∈ ws, l ∈ X := fun ws hws l hl =>
      Finset.mem_biUnion.mpr ⟨ws, hws, List.mem_toFinset.mpr hl⟩
    rcases X.eq_empty_or_nonempty with he | hne
    · refine ⟨1, one_ne_zero, le_rfl, fun ws hws l hl => ?_⟩
      have := hmem ws hws l hl
      rw [he] at this
      simp at this
    · obtain ⟨l0, hl0, hmin⟩ := Finset.exists_min_image X φ hne
      refine ⟨a * φ l0, mul_ne_zero ha0 (hX l0 hl0), mul_le_one' ha1 (φ.coe_le_one _), fun ws hws l hl => ?_⟩
      gcongr
      exact hmin l (hmem ws hws l hl)
  set K := Ws.sup List.length + 1 with hK
  have hcK : c ^ K ≤ 1 := pow_le_one₀ zero_le hc1
  have hct : c ^ K ≠ ⊤ := ne_top_of_le_ne_top ENNReal.one_ne_top hcK
  have hδ : 0 < (c ^ K).toReal := ENNReal.toReal_pos (pow_ne_zero _ hc0) hct
  have hδ1 : (c ^ K).toReal ≤ 1 := by
    rw [← ENNReal.toReal_one]
    exact ENNReal.toReal_mono ENNReal.one_ne_top hcK
  refine ⟨(c ^ K).toReal, K, hδ, hδ1, by omega, fun T threshold hT h2 rate hr m st hst => ?_⟩
  have key : ∀ q st, Reachable φ.support st →
      failP n T threshold rate cap (proposeLaw p φ L) (q * K) st ≤ (1 - c ^ K) ^ q := by
    intro q
    induction q with
    | zero => intro st _; simpa using failP_le_one _ _ _
    | succ q ih =>
      intro st hst
      obtain ⟨ws, hws, hg⟩ := h2 st.gates hst.layered
      have hlen : ws.length ≤ K := (Finset.le_sup (f := List.length) hws).trans (by omega)
      have := failP_word (k := q * K) hT hφ hr hcap hp0.le hp1 ih hc1 ws (h1 ws hws) (hc ws hws) hst hg
      refine (failP_antitone _ (show q * K + ws.length ≤ (q + 1) * K by rw [add_mul, one_mul]; omega) st).trans
        (this.trans ?_)
      rw [pow_succ (1 - c ^ K) q]
      exact mul_le_mul' le_rfl (tsub_le_tsub_left (pow_le_pow_of_le_one zero_le hc1 hlen) 1)
  refine (failP_antitone _ (Nat.div_mul_le_self m K) st).trans ((key (m / K) st hst).trans (le_of_eq ?_))
  rw [ENNReal.ofReal_pow (by linarith), ENNReal.ofReal_sub _ hδ.le, ENNReal.ofReal_one, ENNReal.ofReal_toReal hct]

/-- The probability not to have reached the goal decreases exponentially. -/
theorem failP_exponential (hT : T ∈ unitaryGroup (Fin (2 ^ n)) ℂ) (hφ : LayerOk n L φ.support) (hcap : 0 ≤ cap)
    (hp0 : 0 < p) (hp1 : p ≤ 1) {w : List EntryVal} (hw : Layered φ.support w) (hgood : cost n T w < allowed threshold) :
    ∃ (δ : ℝ) (K : ℕ), 0 < δ ∧ δ ≤ 1 ∧ 0 < K ∧ ∀ rate, 0 ≤ rate → ∀ m st, Reachable φ.support st →
      failP n T threshold rate cap (proposeLaw p φ L) m st ≤ ENNReal.ofReal ((1 - δ) ^ (m / K)) := by
  obtain ⟨Ws, h1, h2⟩ := exists_words hT hφ hw hgood
  obtain ⟨δ, K, h3, h4, h5, h6⟩ := failP_of_words hφ hcap hp0 hp1 h1
  exact ⟨δ, K, h3, h4, h5, h6 T threshold hT h2⟩

/-- Finitely many sequences of layers suffice to undo all sequences of layers up to any distance. -/
theorem exists_undo (hφ : LayerOk n L P) {t : ℝ} (ht : t < 1) :
    ∃ Ws : Finset (List (List EntryVal)), (∀ ws ∈ Ws, ∀ l ∈ ws, l ∈ P) ∧
      ∀ pre, Layered P pre → ∀ g, Layered P g →
        ∃ ws ∈ Ws, GoodEnough (some t) (cost n (circuit n pre)ᴴ (g ++ ws.flatten)) := by
  classical
  set S : Set (Matrix (Fin (2 ^ n)) (Fin (2 ^ n)) ℂ) := {U | ∃ g, Layered P g ∧ circuit n g = U}
  obtain ⟨F, hF1, hF2, hF3⟩ := exists_finite_words (S := S) (W := 1) (ε := 1 - t)
    (by rintro _ ⟨g, hg, rfl⟩; exact hg.unitary hφ)
    (by
      rintro _ ⟨g, hg, rfl⟩ _ ⟨g', hg', rfl⟩
      exact ⟨g' ++ g, hg'.append hg, circuit_append n g' g⟩)
    ⟨[], .nil, rfl⟩ ⟨[], .nil, rfl⟩ (by linarith)
  have hword : ∀ V ∈ F, ∃ ws : List (List EntryVal), (∀ l ∈ ws, l ∈ P) ∧ circuit n ws.flatten = V := by
    intro V hV
    obtain ⟨_, ⟨ws, rfl, h⟩, h'⟩ := hF2 hV
    exact ⟨ws, h, h'⟩
  choose! f hf using hword
  refine ⟨hF1.toFinset.image f, ?_, fun pre hpre g hg => ?_⟩
  · intro ws hws
    obtain ⟨V, hV, rfl⟩ := Finset.mem_image.mp hws
    exact (hf V (hF1.mem_toFinset.mp hV)).1
  · obtain ⟨V, hV, hlt⟩ := hF3 _ ⟨pre ++ g, hpre.append hg, rfl⟩
    refine ⟨f V, Finset.mem_image_of_mem f (hF1.mem_toFinset.mpr hV), ?_⟩
    have hu := hpre.unitary hφ
    have hT : (circuit n pre)ᴴ ∈ unitaryGroup (Fin (2 ^ n)) ℂ := Unitary.star_mem hu
    have hinv : (circuit n pre)ᴴ * circuit n pre = 1 := Unitary.star_mul_self_of_mem hu
    have h1 := overlap_sub_le (B := (circuit n pre)ᴴ) (A := circuit n (g ++ (f V).flatten)) (by positivity) hT
    rw [overlap_self (by positivity) hT] at h1
    have h2 : ‖circuit n (g ++ (f V).flatten) - (circuit n pre)ᴴ‖ = ‖V * circuit n (pre ++ g) - 1‖ := by
      rw [← norm_mul_unitary hu, sub_mul, hinv, circuit_append, (hf V hV).2, circuit_append, Matrix.mul_assoc]
    change 1 - overlap _ _ ≤ 1 - t
    linarith

end Metropolis

end Stoq
