import Verif.Proofs.Session

/-!
# C30 - C34: what `compile` and `compile_layered` return

In all theorems the state is any state a session can reach (`Session`): after arbitrary calls on sequences and
earlier compilations, with arbitrary random outcomes, in which the compiler `C` was made.
-/

namespace Stoq

open World Compiler

/-! ## C30: termination -/

theorem close_or_full {τ : Arith} {G : EntryVal → Prop} {prop : List EntryVal → PyM Rng (List EntryVal)}
    {C : Compiler} {target : Unitary} {threshold : Option ℝ} {m : ℤ} {w w' : World} {b : ℝ} {R : CompilerResult}
    (h : CompilePost τ G prop C target threshold m w b (.ok R) w') :
    (R.costByStep.length : ℤ) ≤ max m 0 ∧
    ((∃ p, Seq.product τ R.sequence w' = (.ok p, w') ∧ p.closeTo τ target threshold = .ok true) ∨
      (R.costByStep.length : ℤ) = max m 0) := by
  obtain ⟨-, h1, h2, -⟩ := h.ok R rfl
  have hle : (R.costByStep.length : ℤ) ≤ max m 0 := by
    rcases h1 with h1 | h1
    · simp [h1]
    · exact le_trans h1 (le_max_left _ _)
  refine ⟨hle, ?_⟩
  rcases h2 with h2 | h2
  · left
    unfold isClose at h2
    rw [PyM.bind_eq_ok_iff] at h2
    obtain ⟨p, w1, h3, h4⟩ := h2
    have h5 : p.closeTo τ target threshold = .ok true ∧ w1 = w' := by
      have := congrArg Prod.fst h4
      have h6 := congrArg Prod.snd h4
      exact ⟨this, h6⟩
    obtain ⟨h5, rfl⟩ := h5
    exact ⟨p, h3, h5⟩
  · right
    have : (0 : ℤ) ≤ R.costByStep.length := by positivity
    exact le_antisymm hle (max_le h2 this)

/-- C30: `compile` makes at most `max_step_count` steps (none if that is negative), one cost is recorded per step,
and on return the result is close to the target or the budget is used up. -/
theorem C30_compile_stops {τ : Arith} {c : Client} {Cs : List Compiler} (hs : Session τ c Cs) {C : Compiler}
    (hC : C ∈ Cs) {target : Unitary} {threshold : Option ℝ} {m : ℤ} {R : CompilerResult} {w' : World}
    (h : C.compile τ target threshold m c.world = (.ok R, w')) :
    (R.costByStep.length : ℤ) ≤ max m 0 ∧
    ((∃ p, Seq.product τ R.sequence w' = (.ok p, w') ∧ p.closeTo τ target threshold = .ok true) ∨
      (R.costByStep.length : ℤ) = max m 0) := by
  obtain ⟨b, hb, -⟩ := hs.ok.2.alive C hC
  have hp := compile_post (target := target) (threshold := threshold) (m := m) (compile_truthy h) hs.ok.1.wf hb
  rw [h] at hp
  exact close_or_full hp

/-- C30 for `compile_layered`. -/
theorem C30_compileLayered_stops {τ : Arith} {c : Client} {Cs : List Compiler} (hs : Session τ c Cs) {C : Compiler}
    (hC : C ∈ Cs) {target : Unitary} {counts : List (Primitive × ℤ)} {threshold : Option ℝ} {m : ℤ}
    {R : CompilerResult} {w' : World}
    (h : C.compileLayered τ target counts threshold m c.world = (.ok R, w')) :
    (R.costByStep.length : ℤ) ≤ max m 0 ∧
    ((∃ p, Seq.product τ R.sequence w' = (.ok p, w') ∧ p.closeTo τ target threshold = .ok true) ∨
      (R.costByStep.length : ℤ) = max m 0) := by
  obtain ⟨b, hb, -⟩ := hs.ok.2.alive C hC
  have hp := compileLayered_post (target := target) (counts := counts) (threshold := threshold) (m := m)
    hs.ok.1.wf hb
  rw [h] at hp
  exact close_or_full hp

/-- C30: the bound on the number of iterations in the model is never the reason to stop: any larger bound gives the
same result. -/
theorem C30_loop_is_not_cut (τ : Arith) (C : Compiler) (change : ℕ → PyM World Unit) (target : Unitary)
    (threshold : Option ℝ) (m : ℤ) (s : ℕ) (bound : ℕ) (h : m.toNat ≤ bound) :
    compileLoop τ C change target threshold m s bound [] =
      compileLoop τ C change target threshold m s m.toNat [] :=
  compileLoop_fuel τ C change target threshold m s bound m.toNat [] (by simpa using h) (by simp)

/-! ## C31: refinement -/

/-- What `compile` must do: the walk `tr` of the specification is what the code performs. -/
def FollowsWalk (n : ℕ) (C : Compiler) (target : Unitary) (threshold : Option ℝ) (m : ℤ)
    (prop : List EntryVal → PyM Rng (List EntryVal)) (b : ℝ) (w : World)
    (out : Except PyErr CompilerResult × World) : Prop :=
  match Metropolis.run n (target.matrix.toMatrix (2 ^ n)) threshold C.annealingRate (((2 : ℝ) ^ 2 ^ n) ^ 2) prop
      m.toNat ⟨[], b⟩ w.rng with
  | (.error e, r) => out.1 = .error e ∧ out.2.rng = r
  | (.ok tr, r) => out.2.rng = r ∧ ∃ R, out.1 = .ok R ∧
      R.costByStep = tr.map (fun st => Metropolis.cost n (target.matrix.toMatrix (2 ^ n)) st.gates) ∧
      (∃ undo, out.2.view R.sequence = some ⟨2 ^ n, false, (tr.getLast?.getD ⟨[], b⟩).gates, undo⟩) ∧
      out.2.annealing C = some (tr.getLast?.getD ⟨[], b⟩).beta ∧
      (∃ p, (Seq.product 0 R.sequence out.2).1 = .ok p ∧
        p.Holds (circuit n (tr.getLast?.getD ⟨[], b⟩).gates)) ∧
      w.view R.sequence = none

theorem follows_of_post {n : ℕ} {G : EntryVal → Prop} {prop : List EntryVal → PyM Rng (List EntryVal)}
    {C : Compiler} {target : Unitary} {threshold : Option ℝ} {m : ℤ} {w : World} {b : ℝ}
    {out : Except PyErr CompilerResult × World} (hD : C.dimension = 2 ^ n)
    (hcap : C.maxBeta = ((2 : ℝ) ^ C.dimension) ^ 2) (hex : ∀ x ∈ w.entries, x.toVal.Exact)
    (hG : ∀ v, G v → v.Fits n ∧ v.Exact) (ht : target.Exact (2 ^ n))
    (h : CompilePost 0 G prop C target threshold m w b out.1 out.2) :
    FollowsWalk n C target threshold m prop b w out := by
  unfold FollowsWalk
  have hx := h.exact n rfl hD hex hG ht
  rw [hcap, hD] at hx
  revert hx
  rcases Metropolis.run n (target.matrix.toMatrix (2 ^ n)) threshold C.annealingRate (((2 : ℝ) ^ 2 ^ n) ^ 2)
    prop m.toNat ⟨[], b⟩ w.rng with ⟨e | tr, r⟩
  · exact fun hx => ⟨hx.1, hx.2⟩
  · rintro ⟨h1, h2, h3, o', h4, h5, h6⟩
    obtain ⟨-, -, -, o2, b2, g1, g2, g3, -⟩ := h.ok _ h1
    rw [h4] at g1; cases g1
    refine ⟨h2, _, h1, rfl, ⟨o'.previousEntries.map (valsOf out.2.entries), ?_⟩, h3, ?_, ?_⟩
    · exact view_eq_some.mpr ⟨o', h4, by rw [viewOf, g2, g3, h5, hD]⟩
    · have hp := product_wp h.wf h4
      rw [Wp] at hp
      obtain ⟨o3, hp⟩ := hp
      obtain ⟨p, k1, k2, k3, -⟩ := hp.exact n h6
      exact ⟨p, k1, k2.rows, k2.cols, by rw [k3, h5]⟩
    · unfold World.view
      rw [List.getElem?_eq_none (le_refl _)]; rfl

/-- C31: on an `n`-qubit system, with primitives and a target that are exactly unitary, and in exact arithmetic,
`compile` performs exactly the walk of the specification: same exception or same costs, gates, final annealing
value and random state; the product of the result is the circuit of its gates. -/
theorem C31_compile_is_walk {c : Client} {Cs : List Compiler} (hs : Session 0 c Cs) {C : Compiler} (hC : C ∈ Cs)
    (hex : ∀ x ∈ c.world.entries, x.toVal.Exact) {n : ℕ} (hD : C.dimension = 2 ^ n)
    (hprims : ∀ p ∈ C.primitives, p.Valid n) (hT : C.Truthy) {target : Unitary} (ht : target.Exact (2 ^ n))
    {b : ℝ} (hb : c.world.annealing C = some b) (threshold : Option ℝ) (m : ℤ) :
    FollowsWalk n C target threshold m (C.proposal 0) b c.world (C.compile 0 target threshold m c.world) :=
  follows_of_post hD (hs.ok.2.dim C hC).2 hex (fun v hv => generated_good hprims (by rw [← hD]; exact hv)) ht
    (compile_post hT hs.ok.1.wf hb)

/-- C31 for `compile_layered`. -/
theorem C31_compileLayered_is_walk {c : Client} {Cs : List Compiler} (hs : Session 0 c Cs) {C : Compiler}
    (hC : C ∈ Cs) (hex : ∀ x ∈ c.world.entries, x.toVal.Exact) {n : ℕ} (hD : C.dimension = 2 ^ n)
    {counts : List (Primitive × ℤ)} (hprims : ∀ pc ∈ counts, pc.1.Valid n) {target : Unitary}
    (ht : target.Exact (2 ^ n)) {b : ℝ} (hb : c.world.annealing C = some b) (threshold : Option ℝ) (m : ℤ) :
    FollowsWalk n C target threshold m (C.layeredProposal 0 counts) b c.world
      (C.compileLayered 0 target counts threshold m c.world) :=
  follows_of_post hD (hs.ok.2.dim C hC).2 hex (fun v hv => generatedLayer_good hprims (by rw [← hD]; exact hv)) ht
    (compileLayered_post hs.ok.1.wf hb)

/-- C31: compiling does not touch anything that existed before: neither the sequences and gates the client holds nor
other compilers, for every matrix arithmetic and also when it fails. -/
theorem C31_compile_frame {τ : Arith} {c : Client} {Cs : List Compiler} (hs : Session τ c Cs) {C : Compiler}
    (hC : C ∈ Cs) (target : Unitary) (threshold : Option ℝ) (m : ℤ) {c' : Client}
    (hc' : c' = (c.call (C.compile τ target threshold m) (fun _ _ => .handle) (fun _ => [])
      (fun R => [R.sequence])).2) :
    (∀ i v, c.seq i = some v → c'.seq i = some v) ∧ (∀ i v, c.entry i = some v → c'.entry i = some v) ∧
      ∀ C' ∈ Cs, C' ≠ C → c'.world.annealing C' = c.world.annealing C' := by
  have hok := hs.ok
  obtain ⟨b, hb, -⟩ := hok.2.alive C hC
  have main : (∀ r v, c.world.view r = some v → c'.world.view r = some v) ∧
      Grow c.world.entries c'.world.entries ∧ (∀ k, k ≠ C.self → c'.world.betas[k]? = c.world.betas[k]?) ∧
      c.seqs <+: c'.seqs ∧ c.entries <+: c'.entries := by
    have hpre : c.seqs <+: c'.seqs ∧ c.entries <+: c'.entries := by
      subst hc'
      unfold Client.call
      rcases C.compile τ target threshold m c.world with ⟨e | R, w'⟩
      · exact ⟨List.prefix_rfl, List.prefix_rfl⟩
      · exact ⟨List.prefix_append _ _, List.prefix_append _ _⟩
    have hw : c'.world = (C.compile τ target threshold m c.world).2 := by
      subst hc'
      unfold Client.call
      rcases C.compile τ target threshold m c.world with ⟨e | R, w'⟩ <;> rfl
    rw [hw]
    by_cases hT : C.Truthy
    · have hp := compile_post (target := target) (threshold := threshold) (m := m) hT hok.1.wf hb
      refine ⟨fun r v hv => ?_, hp.grow, hp.betaOther, hpre⟩
      obtain ⟨o, h1, rfl⟩ := view_eq_some.mp hv
      have hlt := (List.getElem?_eq_some_iff.mp h1).1
      exact view_eq_some.mpr ⟨o, by rw [hp.others r hlt]; exact h1,
        (viewOf_grow (hok.1.wf.seq h1) hp.grow).symm⟩
    · rcases compile_falsy (τ := τ) (target := target) (threshold := threshold) (m := m) hT c.world with h | h <;>
      · rw [h]
        exact ⟨fun _ _ hv => hv, .refl _, fun _ _ => rfl, hpre⟩
  obtain ⟨h1, h2, h3, h4, h5⟩ := main
  refine ⟨fun i v hv => ?_, fun i v hv => ?_, fun C' hC' hne => ?_⟩
  · obtain ⟨r, hr, hv'⟩ := Option.bind_eq_some_iff.mp hv
    exact Option.bind_eq_some_iff.mpr ⟨r, getElem?_of_prefix h4 hr, h1 r v hv'⟩
  · obtain ⟨r, hr, hv'⟩ := Option.bind_eq_some_iff.mp hv
    obtain ⟨x, hx, rfl⟩ := Option.map_eq_some_iff.mp hv'
    obtain ⟨x', hx', hxx⟩ := h2 r x hx
    exact Option.bind_eq_some_iff.mpr ⟨r, getElem?_of_prefix h5 hr, by rw [hx']; simp [hxx]⟩
  · refine h3 _ fun he => hne ?_
    exact List.inj_on_of_nodup_map hok.2.distinct hC' hC he

/-! ## C32: costs -/

theorem generated_wf {τ : Arith} {D : ℕ} {prims : List Primitive} {probs : Option (List ℝ)} {v : EntryVal}
    (h : Generated τ D prims probs v) : v.WF := (generated_from h).1

theorem cost_mem {n : ℕ} {target : Unitary} (ht : target.Exact (2 ^ n)) {gates : List EntryVal}
    (hg : ∀ v ∈ gates, v.WF ∧ v.Fits n ∧ v.Exact) :
    0 ≤ Metropolis.cost n (target.matrix.toMatrix (2 ^ n)) gates ∧
      Metropolis.cost n (target.matrix.toMatrix (2 ^ n)) gates ≤ 1 := by
  unfold Metropolis.cost
  have h1 := overlap_le_one (Matrix.mem_specialUnitaryGroup_iff.mp ht.2.2.2).1
    (Matrix.mem_specialUnitaryGroup_iff.mp (circuit_mem_su hg)).1
  have h2 := overlap_nonneg (target.matrix.toMatrix (2 ^ n)) (circuit n gates)
  constructor <;> linarith

/-- What C32 says of the results `M m` of compiling with budget `m`. -/
def CostsAreDistances (n : ℕ) (target : Unitary) (M : ℤ → PyM World CompilerResult) (m : ℤ) (w : World) : Prop :=
  ∀ R w', M m w = (.ok R, w') →
    (∀ x ∈ R.costByStep, 0 ≤ x ∧ x ≤ 1) ∧
    (∀ k (hk : k < R.costByStep.length), ∃ R' w'' v, M (k + 1) w = (.ok R', w'') ∧
      R'.costByStep = R.costByStep.take (k + 1) ∧ w''.view R'.sequence = some v ∧
      R.costByStep[k] = Metropolis.cost n (target.matrix.toMatrix (2 ^ n)) v.entries) ∧
    ∀ x, R.costByStep.getLast? = some x →
      ∃ p, (Seq.product 0 R.sequence w').1 = .ok p ∧ target.distanceFrom 0 p = .ok x

theorem costs_of_posts {n : ℕ} {G : EntryVal → Prop} {prop : List EntryVal → PyM Rng (List EntryVal)}
    {C : Compiler} {target : Unitary} {threshold : Option ℝ} {w : World} {b : ℝ}
    {M : ℤ → PyM World CompilerResult} (hD : C.dimension = 2 ^ n) (hex : ∀ x ∈ w.entries, x.toVal.Exact)
    (hG : ∀ v, G v → v.WF ∧ v.Fits n ∧ v.Exact) (ht : target.Exact (2 ^ n))
    (hprop : ∀ g r new r', (∀ v ∈ g, G v) → prop g r = (.ok new, r') → ∀ v ∈ new, G v)
    (h : ∀ m, CompilePost 0 G prop C target threshold m w b (M m w).1 (M m w).2) (m : ℤ) :
    CostsAreDistances n target M m w := by
  intro R w' hM
  have hx := (h m).exact n rfl hD hex (fun v hv => (hG v hv).2) ht
  rw [hM] at hx
  have hwf := (h m).wf
  rw [hM] at hwf
  rcases hrun : Metropolis.run n (target.matrix.toMatrix (2 ^ n)) threshold C.annealingRate C.maxBeta prop m.toNat
    ⟨[], b⟩ w.rng with ⟨e | tr, r⟩
  · rw [hrun] at hx; cases hx.1
  rw [hrun] at hx
  obtain ⟨h1, h2, h3, o', h4, h5, h6⟩ := hx
  cases h1
  have hP := Metropolis.run_inv (P := fun g => ∀ v ∈ g, G v) hprop hrun (by simp)
  refine ⟨?_, ?_, ?_⟩
  · intro x hx
    obtain ⟨st, hst, rfl⟩ := List.mem_map.mp hx
    exact cost_mem ht fun v hv => hG v (hP st hst v hv)
  · intro k hk
    simp only [List.length_map] at hk
    have hkm : k + 1 ≤ m.toNat := by have := Metropolis.run_length hrun; omega
    obtain ⟨r'', hrun'⟩ := Metropolis.run_take hkm hrun
    have hx' := (h (k + 1)).exact n rfl hD hex (fun v hv => (hG v hv).2) ht
    rw [show ((k : ℤ) + 1).toNat = k + 1 by omega, hrun'] at hx'
    obtain ⟨g1, g2, g3, o2, g4, g5, g6⟩ := hx'
    refine ⟨_, (M (k + 1) w).2, _, Prod.ext g1 rfl, ?_, view_eq_some.mpr ⟨o2, g4, rfl⟩, ?_⟩
    · simp only [List.map_take]
    · have hlast : (tr.take (k + 1)).getLast?.getD ⟨[], b⟩ = tr[k] := by
        rw [List.take_succ_eq_append_getElem hk, List.getLast?_concat]
        rfl
      rw [hlast] at g5
      simp only [viewOf, List.getElem_map, g5]
  · intro x hx
    simp only [List.getLast?_map] at hx
    obtain ⟨st, hst, rfl⟩ := Option.map_eq_some_iff.mp hx
    rw [hst] at h5
    have hp := product_wp hwf h4
    rw [Wp] at hp
    obtain ⟨o3, hp⟩ := hp
    obtain ⟨p, k1, k2, k3, -⟩ := hp.exact n h6
    refine ⟨p, k1, ?_⟩
    rw [Unitary.distanceFrom_eq ht k2, k3, h5]
    rfl

/-- C32: in exact arithmetic the recorded costs are in `[0, 1]`; the `k`-th one is the distance between the target and
the sequence held after that step (the one returned when the budget is `k`); the last one is
`target.distance_from(result.product())`. -/
theorem C32_compile_costs {c : Client} {Cs : List Compiler} (hs : Session 0 c Cs) {C : Compiler} (hC : C ∈ Cs)
    (hex : ∀ x ∈ c.world.entries, x.toVal.Exact) {n : ℕ} (hD : C.dimension = 2 ^ n)
    (hprims : ∀ p ∈ C.primitives, p.Valid n) (hT : C.Truthy) {target : Unitary} (ht : target.Exact (2 ^ n))
    (threshold : Option ℝ) (m : ℤ) :
    CostsAreDistances n target (fun m => C.compile 0 target threshold m) m c.world := by
  obtain ⟨b, hb, -⟩ := hs.ok.2.alive C hC
  exact costs_of_posts hD hex
    (fun v hv => ⟨generated_wf hv, generated_good hprims (by rw [← hD]; exact hv)⟩) ht
    (fun _ _ _ _ hg h => proposal_forall hg h) (fun m => compile_post hT hs.ok.1.wf hb) m

/-- C32 for `compile_layered`. -/
theorem C32_compileLayered_costs {c : Client} {Cs : List Compiler} (hs : Session 0 c Cs) {C : Compiler}
    (hC : C ∈ Cs) (hex : ∀ x ∈ c.world.entries, x.toVal.Exact) {n : ℕ} (hD : C.dimension = 2 ^ n)
    {counts : List (Primitive × ℤ)} (hprims : ∀ pc ∈ counts, pc.1.Valid n) {target : Unitary}
    (ht : target.Exact (2 ^ n)) (threshold : Option ℝ) (m : ℤ) :
    CostsAreDistances n target (fun m => C.compileLayered 0 target counts threshold m) m c.world := by
  obtain ⟨b, hb, -⟩ := hs.ok.2.alive C hC
  refine costs_of_posts hD hex
    (fun v hv => ⟨?_, generatedLayer_good hprims (by rw [← hD]; exact hv)⟩) ht
    (fun _ _ _ _ hg h => layeredProposal_forall hg h) (fun m => compileLayered_post hs.ok.1.wf hb) m
  obtain ⟨pc, -, hv⟩ := hv
  exact generated_wf hv

/-- C32, for every matrix arithmetic: a run with a smaller budget records the first costs of the longer run. -/
theorem C32_compile_prefix {τ : Arith} {C : Compiler} {target : Unitary} {threshold : Option ℝ} {k m : ℤ} (hkm : k ≤ m)
    {w w' : World} {R : CompilerResult} (h : C.compile τ target threshold m w = (.ok R, w')) :
    ∃ w'', C.compile τ target threshold k w = (.ok ⟨R.sequence, R.costByStep.take k.toNat⟩, w'') := by
  have hT := compile_truthy h
  rw [compile_eq hT] at h ⊢
  unfold compileWith at h ⊢
  rw [PyM.bind_eq_ok_iff] at h
  obtain ⟨s, w1, h1, h⟩ := h
  rw [PyM.bind_eq_ok_iff] at h
  obtain ⟨cs, w2, h2, h⟩ := h
  cases h
  obtain ⟨-, w'', h3⟩ := compileLoop_take τ C (makeRandomChange τ C) target threshold hkm s m.toNat h2
  rw [compileLoop_fuel τ C (makeRandomChange τ C) target threshold k s m.toNat k.toNat [] (by simp; omega)
    (by simp)] at h3
  refine ⟨w'', ?_⟩
  rw [PyM.bind_of_ok h1, PyM.bind_of_ok h3]
  simp only [List.length_nil, Nat.zero_le, max_eq_left]
  rfl

/-- C32, for every matrix arithmetic: a run that ended before its budget was used up is the run for every larger
budget. -/
theorem C32_compile_early {τ : Arith} {C : Compiler} {target : Unitary} {threshold : Option ℝ} {k m : ℤ} (hkm : k ≤ m)
    {w w' : World} {R : CompilerResult} (h : C.compile τ target threshold k w = (.ok R, w'))
    (hlt : (R.costByStep.length : ℤ) < k) : C.compile τ target threshold m w = (.ok R, w') := by
  have hT := compile_truthy h
  rw [compile_eq hT] at h ⊢
  exact compileWith_early hkm h hlt

/-- C32 for `compile_layered`. -/
theorem C32_compileLayered_early {τ : Arith} {C : Compiler} {target : Unitary} {counts : List (Primitive × ℤ)}
    {threshold : Option ℝ} {k m : ℤ} (hkm : k ≤ m) {w w' : World} {R : CompilerResult}
    (h : C.compileLayered τ target counts threshold k w = (.ok R, w')) (hlt : (R.costByStep.length : ℤ) < k) :
    C.compileLayered τ target counts threshold m w = (.ok R, w') :=
  compileWith_early hkm h hlt

/-! ## C33: no exceptions -/

theorem ok_of_post {n : ℕ} {G : EntryVal → Prop} {prop : List EntryVal → PyM Rng (List EntryVal)}
    {C : Compiler} {target : Unitary} {threshold : Option ℝ} {w : World} {b : ℝ} {m : ℤ}
    {out : Except PyErr CompilerResult × World} (hD : C.dimension = 2 ^ n)
    (hex : ∀ x ∈ w.entries, x.toVal.Exact) (hG : ∀ v, G v → v.Fits n ∧ v.Exact) (ht : target.Exact (2 ^ n))
    (hprop : ∀ g r, ∃ new r', prop g r = (.ok new, r'))
    (h : CompilePost 0 G prop C target threshold m w b out.1 out.2) : ∃ R, out.1 = .ok R := by
  have hx := h.exact n rfl hD hex hG ht
  obtain ⟨tr, r, hrun⟩ := Metropolis.run_ok (n := n) (T := target.matrix.toMatrix (2 ^ n)) (threshold := threshold)
    (rate := C.annealingRate) (cap := C.maxBeta) (prop := prop) (P := fun _ => True) (k := m.toNat)
    (st := ⟨[], b⟩) (fun g r _ => by obtain ⟨new, r', h⟩ := hprop g r; exact ⟨new, r', h, trivial⟩) w.rng trivial
  rw [hrun] at hx
  exact ⟨_, hx.1⟩

/-- C33: with a power-of-two dimension, valid primitives, at least one of which can be used, valid probabilities (if
given, one for each usable primitive) and an append probability in `[0, 1]`, `compile` never raises an exception,
whatever the random outcomes; in particular `undo()` is never called when there is nothing to undo. -/
theorem C33_compile_never_raises {c : Client} {Cs : List Compiler} (hs : Session 0 c Cs) {C : Compiler}
    (hC : C ∈ Cs) (hex : ∀ x ∈ c.world.entries, x.toVal.Exact) {n : ℕ} (hD : C.dimension = 2 ^ n)
    (hprims : ∀ p ∈ C.primitives, p.Valid n) (hT : C.Truthy) (hch : ChoiceOk C.primitives C.probabilities)
    (hp : 0 ≤ C.appendProbability ∧ C.appendProbability ≤ 1) {target : Unitary} (ht : target.Exact (2 ^ n))
    (threshold : Option ℝ) (m : ℤ) :
    ∃ R w', C.compile 0 target threshold m c.world = (.ok R, w') := by
  obtain ⟨b, hb, -⟩ := hs.ok.2.alive C hC
  obtain ⟨R, hR⟩ := ok_of_post hD hex (fun v hv => generated_good hprims (by rw [← hD]; exact hv)) ht
    (fun g r => Metropolis.propose_ok hp (fun r => by
      obtain ⟨v, r', h, -⟩ := createRandomEntryVal_valid hch hprims r
      exact ⟨[v], r', Metropolis.one_ok_iff.mpr ⟨v, by rw [hD]; exact h, rfl⟩⟩) 1 g r)
    (compile_post (target := target) (threshold := threshold) (m := m) hT hs.ok.1.wf hb)
  exact ⟨R, _, Prod.ext hR rfl⟩

/-- C33 for `compile_layered`: every primitive with a positive count must be usable. -/
theorem C33_compileLayered_never_raises {c : Client} {Cs : List Compiler} (hs : Session 0 c Cs) {C : Compiler}
    (hC : C ∈ Cs) (hex : ∀ x ∈ c.world.entries, x.toVal.Exact) {n : ℕ} (hD : C.dimension = 2 ^ n)
    {counts : List (Primitive × ℤ)} (hprims : ∀ pc ∈ counts, pc.1.Valid n)
    (hus : ∀ pc ∈ counts, 0 < pc.2 → pc.1.allowedApplyTo ≠ some [])
    (hp : 0 ≤ C.appendProbability ∧ C.appendProbability ≤ 1) {target : Unitary} (ht : target.Exact (2 ^ n))
    (threshold : Option ℝ) (m : ℤ) :
    ∃ R w', C.compileLayered 0 target counts threshold m c.world = (.ok R, w') := by
  obtain ⟨b, hb, -⟩ := hs.ok.2.alive C hC
  obtain ⟨R, hR⟩ := ok_of_post hD hex (fun v hv => generatedLayer_good hprims (by rw [← hD]; exact hv)) ht
    (fun g r => Metropolis.propose_ok hp (fun r => by
      obtain ⟨vs, r1, h1⟩ := Metropolis.block_valid (gen := fun p => createRandomEntryVal 0 C.dimension [p] none)
        (counts := counts) (fun pc hpc hpos r => by
          have hu : usable pc.1 = true := by
            have := hus pc hpc hpos
            unfold usable
            rcases h : pc.1.allowedApplyTo with _ | _ | ⟨x, l⟩
            · rfl
            · exact absurd h this
            · simp
          obtain ⟨v, r', h, -⟩ := createRandomEntryVal_valid (n := n) (prims := [pc.1]) (probs := none)
            (show 0 < ([pc.1].filter usable).length by simp [hu]) (by simpa using hprims pc hpc) r
          exact ⟨v, r', by rw [hD]; exact h⟩) r
      obtain ⟨l, r2, h2, -⟩ := Rng.shuffle_perm vs r1
      exact ⟨l, r2, by unfold Metropolis.layer; rw [PyM.bind_of_ok h1]; exact h2⟩) _ g r)
    (compileLayered_post (target := target) (counts := counts) (threshold := threshold) (m := m) hs.ok.1.wf hb)
  exact ⟨R, _, Prod.ext hR rfl⟩

/-! ## C34: provenance -/

/-- C34: for every matrix arithmetic, every gate of the compiled sequence is an instance of one of the primitives, on
qubits it may act on. -/
theorem C34_compile_provenance {τ : Arith} {c : Client} {Cs : List Compiler} (hs : Session τ c Cs) {C : Compiler}
    (hC : C ∈ Cs) {target : Unitary} {threshold : Option ℝ} {m : ℤ} {R : CompilerResult} {w' : World}
    (h : C.compile τ target threshold m c.world = (.ok R, w')) :
    ∃ v, w'.view R.sequence = some v ∧ v.dimension = C.dimension ∧ v.isArray = false ∧
      ∀ g ∈ v.entries, g.WF ∧ ∃ p ∈ C.primitives, FromPrimitive τ (intLog2 C.dimension) p g := by
  obtain ⟨b, hb, -⟩ := hs.ok.2.alive C hC
  have hp := compile_post (target := target) (threshold := threshold) (m := m) (compile_truthy h) hs.ok.1.wf hb
  rw [h] at hp
  obtain ⟨-, -, -, o', b', h1, h2, h3, -, h4⟩ := hp.ok R rfl
  refine ⟨_, view_eq_some.mpr ⟨o', h1, rfl⟩, h2, h3, fun g hg => ?_⟩
  have := Metropolis.Walk.inv (P := fun g => ∀ v ∈ g, Generated τ C.dimension C.primitives C.probabilities v)
    (fun _ _ _ _ hg h => proposal_forall hg h) h4 (by simp) g hg
  obtain ⟨h5, p, h6, -, h7⟩ := generated_from this
  exact ⟨h5, p, h6, h7⟩

/-- C34 for `compile_layered`. -/
theorem C34_compileLayered_provenance {τ : Arith} {c : Client} {Cs : List Compiler} (hs : Session τ c Cs)
    {C : Compiler} (hC : C ∈ Cs) {target : Unitary} {counts : List (Primitive × ℤ)} {threshold : Option ℝ} {m : ℤ}
    {R : CompilerResult} {w' : World} (h : C.compileLayered τ target counts threshold m c.world = (.ok R, w')) :
    ∃ v, w'.view R.sequence = some v ∧ v.dimension = C.dimension ∧ v.isArray = false ∧
      ∀ g ∈ v.entries, g.WF ∧ ∃ pc ∈ counts, FromPrimitive τ (intLog2 C.dimension) pc.1 g := by
  obtain ⟨b, hb, -⟩ := hs.ok.2.alive C hC
  have hp := compileLayered_post (target := target) (counts := counts) (threshold := threshold) (m := m)
    hs.ok.1.wf hb
  rw [h] at hp
  obtain ⟨-, -, -, o', b', h1, h2, h3, -, h4⟩ := hp.ok R rfl
  refine ⟨_, view_eq_some.mpr ⟨o', h1, rfl⟩, h2, h3, fun g hg => ?_⟩
  obtain ⟨pc, hpc, hgen⟩ := Metropolis.Walk.inv (P := fun g => ∀ v ∈ g, GeneratedLayer τ C.dimension counts v)
    (fun _ _ _ _ hg h => layeredProposal_forall hg h) h4 (by simp) g hg
  obtain ⟨h5, p, h6, -, h7⟩ := generated_from hgen
  obtain rfl := List.mem_singleton.mp h6
  exact ⟨h5, pc, hpc, h7⟩

end Stoq
