import Verif.Proofs.Draws
import Verif.Proofs.Session

/-! # Runs of the random walk with prescribed draws -/

namespace Stoq

open World Compiler

namespace Metropolis

/-- The draw that selects "append at the end". -/
noncomputable def drawAppend {p : ℝ} (h0 : 0 < p) (h1 : p ≤ 1) : Set.Ico (0 : ℝ) 1 :=
  ⟨p / 2, by linarith, by linarith⟩

/-- The draw that accepts everything. -/
def drawAccept : Set.Ico (0 : ℝ) 1 := ⟨0, le_rfl, one_pos⟩

theorem propose_yields {p : ℝ} (h0 : 0 < p) (h1 : p ≤ 1) {fresh : PyM Rng (List EntryVal)}
    {us : List (Set.Ico (0 : ℝ) 1)} {ns : List (ℕ × ℕ)} {vs : List EntryVal} (hf : Rng.Yields fresh us ns vs) (L : ℕ)
    (g : List EntryVal) : Rng.Yields (propose p fresh L g) (drawAppend h0 h1 :: us) ns (g ++ vs) := by
  unfold propose
  refine Rng.Yields.bind_lift (raiseUnless_of ⟨h0.le, h1⟩) ?_
  refine Rng.Yields.bind (us := [drawAppend h0 h1]) (ns := []) (Rng.Yields.randomSample _) ?_
  rw [if_neg (by simp [drawAppend]), if_pos (by simp [drawAppend]; linarith)]
  exact hf.map _

theorem step_yields {n : ℕ} {T : Matrix (Fin (2 ^ n)) (Fin (2 ^ n)) ℂ} {rate cap : ℝ}
    {proposal : List EntryVal → PyM Rng (List EntryVal)} {g new : List EntryVal} {us : List (Set.Ico (0 : ℝ) 1)}
    {ns : List (ℕ × ℕ)} (hp : Rng.Yields (proposal g) us ns new) (b : ℝ) :
    Rng.Yields (step n T rate cap proposal ⟨g, b⟩) (us ++ [drawAccept]) ns ⟨new, min (b + rate) cap⟩ := by
  unfold step
  have h2 : Rng.Yields (do
      let u ← Rng.randomSample
      if u < min 1 (Real.exp (-(min (b + rate) cap) * (cost n T new - cost n T g))) then
        pure (⟨new, min (b + rate) cap⟩ : State)
      else pure ⟨g, min (b + rate) cap⟩) [drawAccept] [] ⟨new, min (b + rate) cap⟩ := by
    refine Rng.Yields.bind (us := [drawAccept]) (us' := []) (ns := []) (ns' := []) (Rng.Yields.randomSample _) ?_
    rw [if_pos]
    · exact Rng.Yields.pure _
    · exact lt_min one_pos (Real.exp_pos _)
  have := Rng.Yields.bind (f := fun new => do
      let u ← Rng.randomSample
      if u < min 1 (Real.exp (-(min (b + rate) cap) * (cost n T new - cost n T g))) then
        pure (⟨new, min (b + rate) cap⟩ : State)
      else pure ⟨g, min (b + rate) cap⟩) hp h2
  rw [List.append_nil] at this
  exact this

/-- A run that appends the given blocks one after another. -/
theorem run_yields {n : ℕ} {T : Matrix (Fin (2 ^ n)) (Fin (2 ^ n)) ℂ} {threshold : Option ℝ} {rate cap : ℝ}
    {proposal : List EntryVal → PyM Rng (List EntryVal)} (blocks : List (List EntryVal)) (k : ℕ)
    (hb : ∀ vs ∈ blocks, ∃ us ns, Rng.InRange ns ∧ ∀ g, Rng.Yields (proposal g) us ns (g ++ vs)) (g : List EntryVal)
    (hfar : ∀ j < blocks.length, ¬ GoodEnough threshold (cost n T (g ++ (blocks.take j).flatten)))
    (hk : blocks.length = k ∨ blocks.length ≤ k ∧ GoodEnough threshold (cost n T (g ++ blocks.flatten))) :
    ∃ us ns, Rng.InRange ns ∧ ∀ b, ∃ tr b', Rng.Yields (run n T threshold rate cap proposal k ⟨g, b⟩) us ns tr ∧
      tr.length = blocks.length ∧ tr.getLast?.getD ⟨g, b⟩ = ⟨g ++ blocks.flatten, b'⟩ := by
  induction blocks generalizing k g with
  | nil =>
    refine ⟨[], [], Rng.inRange_nil, fun b => ⟨[], b, ?_, rfl, by simp⟩⟩
    rcases k with _ | k
    · exact Rng.Yields.pure _
    · rcases hk with hk | ⟨-, hk⟩
      · simp at hk
      · unfold run
        rw [if_pos (by simpa using hk)]
        exact Rng.Yields.pure _
  | cons vs blocks ih =>
    obtain ⟨us1, ns1, hr1, h1⟩ := hb vs (by simp)
    rcases k with _ | k
    · simp at hk
    obtain ⟨us2, ns2, hr2, h2⟩ := ih k (fun vs' h => hb vs' (by simp [h])) (g ++ vs) (fun j hj => by
        have := hfar (j + 1) (by simpa using hj)
        rw [List.take_succ_cons, List.flatten_cons, ← List.append_assoc] at this
        exact this) (by
        rcases hk with hk | ⟨hk, hg⟩
        · left; simpa using hk
        · right
          refine ⟨by simpa using hk, ?_⟩
          rw [List.flatten_cons, ← List.append_assoc] at hg
          exact hg)
    have hfar0 := hfar 0 (by simp)
    rw [List.take_zero, List.flatten_nil, List.append_nil] at hfar0
    refine ⟨us1 ++ [drawAccept] ++ us2, ns1 ++ ns2, Rng.inRange_append.mpr ⟨hr1, hr2⟩, fun b => ?_⟩
    obtain ⟨tr, b', h2, h3, h4⟩ := h2 (min (b + rate) cap)
    have h5 := step_yields (n := n) (T := T) (rate := rate) (cap := cap) (h1 g) b
    refine ⟨⟨g ++ vs, min (b + rate) cap⟩ :: tr, b', ?_, by simp [h3], ?_⟩
    · unfold run
      rw [if_neg (by simpa using hfar0)]
      exact Rng.Yields.bind (f := fun st' => run n T threshold rate cap proposal k st' >>= fun rest =>
        pure (st' :: rest)) h5 (h2.map _)
    · rw [List.flatten_cons, ← List.append_assoc, ← h4]
      rcases tr with _ | ⟨x, tr⟩
      · rfl
      · rw [List.getLast?_cons_cons]
        simp [List.getLast?_eq_some_getLast]

/-- A block of given gates. -/
theorem many_yields {gen : PyM Rng EntryVal} (vs : List EntryVal)
    (h : ∀ v ∈ vs, ∃ us ns, Rng.InRange ns ∧ Rng.Yields gen us ns v) :
    ∃ us ns, Rng.InRange ns ∧ Rng.Yields (many gen vs.length) us ns vs := by
  induction vs with
  | nil => exact ⟨[], [], Rng.inRange_nil, Rng.Yields.pure _⟩
  | cons v vs ih =>
    obtain ⟨us1, ns1, hr1, h1⟩ := h v (by simp)
    obtain ⟨us2, ns2, hr2, h2⟩ := ih fun v' hv' => h v' (by simp [hv'])
    refine ⟨us1 ++ us2, ns1 ++ ns2, Rng.inRange_append.mpr ⟨hr1, hr2⟩, ?_⟩
    rw [List.length_cons, many]
    exact Rng.Yields.bind (f := fun v => many gen vs.length >>= fun vs => pure (v :: vs)) h1 (h2.map _)

theorem block_yields {gen : Primitive → PyM Rng EntryVal} {counts : List (Primitive × ℤ)}
    {groups : List (List EntryVal)} (h : List.Forall₂ (fun pc g => g.length = pc.2.toNat ∧
      ∀ v ∈ g, ∃ us ns, Rng.InRange ns ∧ Rng.Yields (gen pc.1) us ns v) counts groups) :
    ∃ us ns, Rng.InRange ns ∧ Rng.Yields (block gen counts) us ns groups.flatten := by
  induction h with
  | nil => exact ⟨[], [], Rng.inRange_nil, Rng.Yields.pure _⟩
  | @cons pc g counts groups hg _ ih =>
    obtain ⟨us1, ns1, hr1, h1⟩ := many_yields g hg.2
    obtain ⟨us2, ns2, hr2, h2⟩ := ih
    refine ⟨us1 ++ us2, ns1 ++ ns2, Rng.inRange_append.mpr ⟨hr1, hr2⟩, ?_⟩
    rw [hg.1] at h1
    exact Rng.Yields.bind (f := fun vs => block gen counts >>= fun more => pure (vs ++ more)) h1 (h2.map _)

theorem layer_yields {gen : Primitive → PyM Rng EntryVal} {counts : List (Primitive × ℤ)}
    {groups : List (List EntryVal)} (h : List.Forall₂ (fun pc g => g.length = pc.2.toNat ∧
      ∀ v ∈ g, ∃ us ns, Rng.InRange ns ∧ Rng.Yields (gen pc.1) us ns v) counts groups) {l : List EntryVal}
    (hp : l.Perm groups.flatten) : ∃ us ns, Rng.InRange ns ∧ Rng.Yields (layer gen counts) us ns l := by
  obtain ⟨us1, ns1, hr1, h1⟩ := block_yields h
  obtain ⟨ns2, hr2, h2⟩ := Rng.shuffle_reach hp
  refine ⟨us1 ++ [], ns1 ++ ns2, Rng.inRange_append.mpr ⟨hr1, hr2⟩, ?_⟩
  exact Rng.Yields.bind (f := fun vs => Rng.shuffle vs) h1 h2

end Metropolis

end Stoq
