import Verif.Proofs.HamiltonianRav
import Verif.Props.CompileStoq
import Verif.Props.Verification

/-!
# C52: the verification sequence of a Hamiltonian

The `while` loop of `compile_rav_sequence` need not end.  The model bounds the number of iterations by `fuel`; the result
`outOfFuel`, which is not a Python exception, means that the loop is still running after `fuel` iterations.
-/

namespace Stoq

open World Matrix Compiler

variable {n : ℕ} {Ms : List (Matrix (Fin (2 ^ n)) (Fin (2 ^ n)) ℂ)} {H : Hamiltonian}

/-- C52: the bound of the model does not influence a finished call: with any larger bound the outcome is the same.
For every matrix arithmetic. -/
theorem C52_fuel {τ : Arith} {H : Hamiltonian} {m time : ℝ} {threshold : Option ℝ} {b : Bool} {fuel fuel' : ℕ}
    {w : World} (h : (H.compileRavSequence τ time m threshold b fuel w).1 ≠ .error .outOfFuel) (hle : fuel ≤ fuel') :
    H.compileRavSequence τ time m threshold b fuel' w = H.compileRavSequence τ time m threshold b fuel w :=
  hrav_mono_le h hle

theorem ravGate_stoqGate {τ : Arith} {H : Hamiltonian} {m t : ℝ} {b : Bool} {prims : List Primitive}
    (hp : H.getUnitaryPrimitives τ m b = .ok prims) {v : EntryVal} (h : RavGate τ prims H.applyTo t v) :
    StoqGate τ H b m t v := by
  obtain ⟨p, hp1, pu, hpu, h1, h2⟩ := h
  rw [primitives_eq hp] at hp1
  obtain ⟨s, hs, rfl⟩ := List.mem_map.mp hp1
  have hpu' : pu = evolutionFamily τ (H.subsetMatrix s) (-m) m (Hamiltonian.subsetSuffix s) := by
    have : (Sum.inr _ : Unitary ⊕ ParamUnitary) = Sum.inr pu := hpu
    exact (Sum.inr.inj this).symm
  rw [hpu'] at h1
  obtain ⟨t', ht, h3⟩ := stoqGate_of_family hs h1 (entryNew_range h2).2.2
  cases ht
  exact h3

/-- C52: a finished `compile_rav_sequence` returns a new sequence: random gates, then compiled ones.  The random gates
are evolutions under subsets of the terms for times `ts` of `[-max_t_step, max_t_step]`; the total of the absolute
times is at least `time`, was less than `time` before the last gate, and exceeds `time` by less than `max_t_step`.
At most 10000 costs are recorded.  For every matrix arithmetic. -/
theorem C52_rav_shape {τ : Arith} {c : Client} {Cs : List Compiler} (hs : Session τ c Cs) {H : Hamiltonian} {time m : ℝ}
    {threshold : Option ℝ} {b : Bool} {fuel : ℕ} {R : CompilerResult} {w' : World}
    (h : H.compileRavSequence τ time m threshold b fuel c.world = (.ok R, w')) :
    c.world.view R.sequence = none ∧ ∃ pre compiled undo ts,
      w'.view R.sequence = some ⟨H.dimension, false, pre ++ compiled, undo⟩ ∧
      List.Forall₂ (StoqGate τ H b m) ts pre ∧ time ≤ (ts.map abs).sum ∧
      (∀ k < ts.length, ((ts.take k).map abs).sum < time) ∧ (pre ≠ [] → (ts.map abs).sum < time + m) ∧
      (∀ e ∈ compiled, ∃ t, StoqGate τ H b m t e) ∧ compiled.length ≤ R.costByStep.length ∧
      R.costByStep.length ≤ 10000 := by
  rcases hp : H.getUnitaryPrimitives τ m b with e | prims
  · rw [hrav_error hp] at h; cases h
  rw [hrav_eq hp] at h
  have hpost := hrav_post H prims m time threshold fuel hs.ok.1.wf
  rw [Wp, h] at hpost
  obtain ⟨pre, r1, o', h1, h2, h3, h4, h5, -, h7⟩ := hpost.ok R rfl
  obtain ⟨-, gates, b', h8, h9, h10⟩ := h7 (by simp)
  obtain ⟨ts, g1, g2, g3⟩ := Rav.evolutions_ok (Q := StoqGate τ H b m)
    (fun t r v r' hv => ravGate_stoqGate hp (evolveGate_ok hv)) h1
  simp only [zero_add] at g2 g3
  have hall := Metropolis.Walk.inv (P := fun g => (∀ v ∈ g, Generated τ H.dimension prims none v))
      (fun _ _ _ _ hg h => proposal_forall (C := ravCompiler H.dimension prims false none 0.5 0) hg h) h9 (by simp)
  refine ⟨by unfold World.view; rw [List.getElem?_eq_none h2]; rfl, pre, gates,
    o'.previousEntries.map (valsOf w'.entries), ts, view_eq_some.mpr ⟨o', h3, by rw [viewOf, h4, h5, h10]⟩,
    g1, g2, g3, fun hne => ?_, fun e he => generated_stoqGate hp (hall e he), ?_, ?_⟩
  · have hlen : 0 < ts.length := by rw [g1.length_eq]; exact List.length_pos_of_ne_nil hne
    have hlast := g3 (ts.length - 1) (by omega)
    have hne' : ts ≠ [] := List.ne_nil_of_length_pos hlen
    rw [← List.dropLast_eq_take] at hlast
    have hsum : (ts.map abs).sum = (ts.dropLast.map abs).sum + |ts.getLast hne'| := by
      conv_lhs => rw [← List.dropLast_append_getLast hne']
      simp
    have hle : |ts.getLast hne'| ≤ m := by
      obtain ⟨i, hi⟩ := List.mem_iff_getElem?.mp (List.getLast_mem hne')
      rcases forall₂_getElem? g1 i with ⟨h, -⟩ | ⟨x, y, h, -, -, -, k1, k2, -⟩
      · rw [hi] at h; cases h
      · rw [hi] at h; cases h
        exact abs_le.mpr ⟨k1, k2⟩
    linarith
  · simpa using Metropolis.Walk.length
      (fun _ _ _ _ h => proposal_length (C := ravCompiler H.dimension prims false none 0.5 0) h) h9
  · rcases h8 with h8 | h8
    · simp [h8]
    · exact_mod_cast h8

/-! ## In exact arithmetic -/

/-- The random gates, read off the random numbers. -/
theorem evolveGate_of {τ : Arith} (hH : H.Of Ms) {m : ℝ} {b : Bool} {prims : List Primitive}
    (hp : H.getUnitaryPrimitives τ m b = .ok prims) {P : List ℕ → EntryVal → Prop} {t : ℝ}
    (hev : ∀ s ∈ H.termSubsets b, ∃ u,
      (evolutionFamily τ (H.subsetMatrix s) (-m) m (Hamiltonian.subsetSuffix s)).asUnitary τ [t] = .ok u ∧
      EntryVal.new u ((List.range n).map Int.ofNat) = .ok ⟨u, List.range n⟩ ∧ P s ⟨u, List.range n⟩) (r : Rng) :
    ∃ v, Rav.evolveGate τ prims H.applyTo t r = (.ok v, { r with npos := r.npos + 1 }) ∧
      ∃ s, (H.termSubsets b)[r.nat r.npos % (H.termSubsets b).length]? = some s ∧ P s v := by
  have hlen : prims.length = (H.termSubsets b).length := by rw [primitives_eq hp, List.length_map]
  have hlt : r.nat r.npos % (H.termSubsets b).length < (H.termSubsets b).length :=
    Nat.mod_lt _ (hH.subsets_pos b)
  have hs := List.getElem?_eq_getElem hlt
  generalize (H.termSubsets b)[r.nat r.npos % (H.termSubsets b).length]'hlt = s at hs
  obtain ⟨u, hu1, hu2, hu3⟩ := hev s (List.mem_of_getElem? hs)
  refine ⟨_, ?_, s, hs, hu3⟩
  have hget : prims[r.nat r.npos % (H.termSubsets b).length]? = some (H.subsetPrimitive τ m s) := by
    rw [primitives_eq hp, List.getElem?_map, hs]; rfl
  have hc : Rng.choice (H.termSubsets b).length r =
      (.ok (r.nat r.npos % (H.termSubsets b).length), { r with npos := r.npos + 1 }) := by
    unfold Rng.choice
    rw [raiseUnless_of (hH.subsets_pos b)]; rfl
  unfold Rav.evolveGate
  rw [hlen, PyM.bind_of_ok hc, hget]
  simp only [Hamiltonian.subsetPrimitive]
  rw [hu1, hH.applyTo]
  show PyM.lift (EntryVal.new u _) _ = _
  rw [hu2]
  rfl

theorem evolveGate_eq (hn : 1 ≤ n) (hH : H.Of Ms) {m : ℝ} (hm : 0 ≤ m) {b : Bool} {prims : List Primitive}
    (hp : H.getUnitaryPrimitives 0 m b = .ok prims) {t : ℝ} (ht : |t| ≤ m) (r : Rng) :
    ∃ v, Rav.evolveGate 0 prims H.applyTo t r = (.ok v, { r with npos := r.npos + 1 }) ∧
      ∃ s, (H.termSubsets b)[r.nat r.npos % (H.termSubsets b).length]? = some s ∧
        Evolves n (Hamiltonian.subsetSuffix s) (subsetSum Ms s) t v :=
  evolveGate_of hH hp (fun _ hs => family_exact hn hH hm hs (abs_le.mp ht)) r

theorem FollowsPlan.ok {random : PyM Rng (List EntryVal)} {prop : List EntryVal → PyM Rng (List EntryVal)}
    {rate cap : ℝ} {threshold : Option ℝ} {skip : Prop} {m : ℤ} {w : World}
    {out : Except PyErr CompilerResult × World} (h : FollowsPlan n (Rav.plan n random prop rate cap threshold skip m) w out)
    (hp : ∀ g r, ∃ new r', prop g r = (.ok new, r')) {pre : List EntryVal} {r1 : Rng}
    (h1 : random w.rng = (.ok pre, r1)) :
    ∃ R w' compiled undo, out = (.ok R, w') ∧ w'.view R.sequence = some ⟨2 ^ n, false, pre ++ compiled, undo⟩ := by
  obtain ⟨walk, r', hplan⟩ := Rav.plan_valid (n := n) (rate := rate) (cap := cap) (threshold := threshold)
    (skip := skip) (m := m) hp h1
  unfold FollowsPlan at h
  rw [hplan] at h
  obtain ⟨-, R, h7, -, ⟨undo, h8⟩, -⟩ := h
  exact ⟨R, _, _, undo, Prod.ext h7 rfl, h8⟩

/-- C52: in exact arithmetic `compile_rav_sequence` follows the specification: random evolutions until the total time
reaches `time`, then a walk of at most 10000 steps towards the inverse of their circuit.  The gates of both parts are
evolutions under a subset of the terms, chosen uniformly by a random number. -/
theorem C52_rav_is_plan {c : Client} {Cs : List Compiler} (hs : Session 0 c Cs)
    (hex : ∀ x ∈ c.world.entries, x.toVal.Exact) (hn : 1 ≤ n) (hH : H.Of Ms) (time : ℝ) {m : ℝ} (hm : 0 ≤ m)
    (threshold : Option ℝ) (b : Bool) :
    ∃ (gate : ℝ → PyM Rng EntryVal) (gen : PyM Rng EntryVal),
      (∀ t (r : Rng), |t| ≤ m → ∃ v, gate t r = (.ok v, { r with npos := r.npos + 1 }) ∧
        ∃ s, (H.termSubsets b)[r.nat r.npos % (H.termSubsets b).length]? = some s ∧
          Evolves n (Hamiltonian.subsetSuffix s) (subsetSum Ms s) t v) ∧
      (∀ r : Rng, ∃ v s, gen r = (.ok v, { r with upos := r.upos + 1, npos := r.npos + 2 }) ∧
        (H.termSubsets b)[r.nat r.npos % (H.termSubsets b).length]? = some s ∧
        Evolves n (Hamiltonian.subsetSuffix s) (subsetSum Ms s) (2 * m * r.unif r.upos - m) v) ∧
      ∀ fuel, FollowsPlan n (Rav.plan n (Rav.evolutions gate m time fuel 0)
        (Metropolis.propose 0.5 (Metropolis.one gen) 1) 0.1 (((2 : ℝ) ^ 2 ^ n) ^ 2) threshold False 10000) c.world
        (H.compileRavSequence 0 time m threshold b fuel c.world) := by
  obtain ⟨prims, hp, hval, -⟩ := C50_primitives hn hH hm b
  have hD := hH.terms.1
  have hT : CompilerUsable H.dimension prims false := by
    refine ⟨⟨by rw [hD]; positivity, fun q hq => by rw [hD]; exact valid_dimension (hval q hq)⟩, ?_, by simp⟩
    rw [primitives_eq hp]
    intro h
    have := hH.subsets_pos b
    rw [List.map_eq_nil_iff.mp h] at this
    exact lt_irrefl _ this
  refine ⟨Rav.evolveGate 0 prims H.applyTo, createRandomEntryVal 0 (2 ^ n) prims none,
    fun t r ht => evolveGate_eq hn hH hm hp ht r, fun r => fresh_gate hn hH hm hp r, fun fuel => ?_⟩
  have hpost := hrav_post H prims m time threshold fuel hs.ok.1.wf
  rw [Wp, ← hrav_eq hp] at hpost
  have := plan_of_post hD hex (fun v hv => by
    obtain ⟨t, hv⟩ := hv
    obtain ⟨s, -, -, -, hv⟩ := (ravGate_stoqGate hp hv).evolves hn hH
    exact hv.good) (fun v hv => generated_good hval (by rw [← hD]; exact hv)) hT hpost
  rw [show (ravCompiler H.dimension prims false none 0.5 0).proposal 0 =
    Metropolis.propose 0.5 (Metropolis.one (createRandomEntryVal 0 (2 ^ n) prims none)) 1 by rw [hD]; rfl, hD] at this
  exact this

/-- C52: in exact arithmetic the distance of the whole product from the identity is the last cost recorded for the
compiled part, and within the threshold if fewer than 10000 costs were recorded. -/
theorem C52_rav_distance {c : Client} {Cs : List Compiler} (hs : Session 0 c Cs)
    (hex : ∀ x ∈ c.world.entries, x.toVal.Exact) (hn : 1 ≤ n) (hH : H.Of Ms) {time m : ℝ} (hm : 0 ≤ m)
    {threshold : Option ℝ} {b : Bool} {fuel : ℕ} {R : CompilerResult} {w' : World}
    (h : H.compileRavSequence 0 time m threshold b fuel c.world = (.ok R, w')) :
    DistanceGuarantee n threshold False 10000 R w' := by
  obtain ⟨gate, gen, -, -, h1⟩ := C52_rav_is_plan hs hex hn hH time hm threshold b
  have h1 := h1 fuel
  rw [h] at h1
  exact distance_of_plan h1

/-- C52: the random part in exact arithmetic.  If `k` is the first number of gates at which the total time, as given by
the random numbers, reaches `time`, the call succeeds (whenever the model is allowed `k` iterations), and the random
part has exactly `k` gates: gate `i` evolves for the time given by the numbers `2i` and `2i+1` of the uniform tape,
under the subset of terms chosen by the number `i` of the other tape. -/
theorem C52_rav_random_part {c : Client} {Cs : List Compiler} (hs : Session 0 c Cs)
    (hex : ∀ x ∈ c.world.entries, x.toVal.Exact) (hn : 1 ≤ n) (hH : H.Of Ms) {time m : ℝ} (hm : 0 ≤ m)
    (threshold : Option ℝ) (b : Bool) {k fuel : ℕ} (hk : k ≤ fuel)
    (hlt : ∀ j < k, Rav.totalTime m c.world.rng j < time) (hge : time ≤ Rav.totalTime m c.world.rng k) :
    ∃ R w' pre compiled undo, H.compileRavSequence 0 time m threshold b fuel c.world = (.ok R, w') ∧
      w'.view R.sequence = some ⟨2 ^ n, false, pre ++ compiled, undo⟩ ∧ pre.length = k ∧
      ∀ i e, pre[i]? = some e → ∃ s,
        (H.termSubsets b)[c.world.rng.nat (c.world.rng.npos + i) % (H.termSubsets b).length]? = some s ∧
        Evolves n (Hamiltonian.subsetSuffix s) (subsetSum Ms s) (Rav.stepTime m c.world.rng i) e := by
  obtain ⟨gate, gen, h1, h2, h3⟩ := C52_rav_is_plan hs hex hn hH time hm threshold b
  have h3 := h3 fuel
  obtain ⟨pre, h4, h5, h6⟩ := Rav.evolutions_tape (gate := gate) (time := time) (total := 0) (P := fun t j v =>
    ∃ s, (H.termSubsets b)[j % (H.termSubsets b).length]? = some s ∧
      Evolves n (Hamiltonian.subsetSuffix s) (subsetSum Ms s) t v) hm (fun t r ht => h1 t r ht) hk
    (fun j hj => by rw [zero_add]; exact hlt j hj) (by rw [zero_add]; exact hge)
  obtain ⟨R, w', compiled, undo, h7, h8⟩ := FollowsPlan.ok h3 (fun g r => Metropolis.propose_ok (p := 0.5) (by norm_num)
    (fun r => by
      obtain ⟨v, s, h, -⟩ := h2 r
      exact ⟨[v], _, Metropolis.one_ok_iff.mpr ⟨v, h, rfl⟩⟩) 1 g r) h4
  exact ⟨R, w', pre, compiled, undo, h7, h8, h5, h6⟩

/-- C52: if the total time is still less than `time` after `fuel` gates, the loop is still running. -/
theorem C52_rav_running {c : Client} {Cs : List Compiler} (hs : Session 0 c Cs)
    (hex : ∀ x ∈ c.world.entries, x.toVal.Exact) (hn : 1 ≤ n) (hH : H.Of Ms) {time m : ℝ} (hm : 0 ≤ m)
    (threshold : Option ℝ) (b : Bool) {fuel : ℕ} (hlt : ∀ j ≤ fuel, Rav.totalTime m c.world.rng j < time) :
    (H.compileRavSequence 0 time m threshold b fuel c.world).1 = .error .outOfFuel := by
  obtain ⟨gate, gen, h1, h2, h3⟩ := C52_rav_is_plan hs hex hn hH time hm threshold b
  have h3 := h3 fuel
  have h4 := Rav.evolutions_running (gate := gate) (time := time) (total := 0) (P := fun t j v =>
    ∃ s, (H.termSubsets b)[j % (H.termSubsets b).length]? = some s ∧
      Evolves n (Hamiltonian.subsetSuffix s) (subsetSum Ms s) t v) hm (fun t r ht => h1 t r ht)
    (fun j hj => by rw [zero_add]; exact hlt j hj)
  unfold FollowsPlan Rav.plan at h3
  rw [PyM.bind_of_error (Prod.ext h4 rfl)] at h3
  exact h3.1

/-- C52: the call ends, and then successfully, if and only if the random numbers make the total time reach `time`. -/
theorem C52_rav_ends_iff {c : Client} {Cs : List Compiler} (hs : Session 0 c Cs)
    (hex : ∀ x ∈ c.world.entries, x.toVal.Exact) (hn : 1 ≤ n) (hH : H.Of Ms) {time m : ℝ} (hm : 0 ≤ m)
    (threshold : Option ℝ) (b : Bool) :
    ((∃ fuel R w', H.compileRavSequence 0 time m threshold b fuel c.world = (.ok R, w')) ↔
      ∃ k, time ≤ Rav.totalTime m c.world.rng k) ∧
    ((∃ fuel, (H.compileRavSequence 0 time m threshold b fuel c.world).1 ≠ .error .outOfFuel) ↔
      ∃ k, time ≤ Rav.totalTime m c.world.rng k) := by
  have key : (∃ k, time ≤ Rav.totalTime m c.world.rng k) →
      ∃ fuel R w', H.compileRavSequence 0 time m threshold b fuel c.world = (.ok R, w') := by
    intro h
    classical
    obtain ⟨R, w', -, -, -, h1, -⟩ := C52_rav_random_part hs hex hn hH hm threshold b (le_refl (Nat.find h))
      (fun j hj => not_le.mp (Nat.find_min h hj)) (Nat.find_spec h)
    exact ⟨_, R, w', h1⟩
  have key2 : (∃ fuel, (H.compileRavSequence 0 time m threshold b fuel c.world).1 ≠ .error .outOfFuel) →
      ∃ k, time ≤ Rav.totalTime m c.world.rng k := by
    rintro ⟨fuel, h⟩
    by_contra hne
    push Not at hne
    exact h (C52_rav_running hs hex hn hH hm threshold b fun j _ => hne j)
  refine ⟨⟨fun ⟨fuel, R, w', h⟩ => key2 ⟨fuel, by rw [h]; simp⟩, key⟩, key2, fun h => ?_⟩
  obtain ⟨fuel, R, w', h⟩ := key h
  exact ⟨fuel, by rw [h]; simp⟩

/-- C52: with `max_t_step = 0` and `time > 0` the call never ends, whatever the random numbers. -/
theorem C52_rav_never_ends {c : Client} {Cs : List Compiler} (hs : Session 0 c Cs)
    (hex : ∀ x ∈ c.world.entries, x.toVal.Exact) (hn : 1 ≤ n) (hH : H.Of Ms) {time : ℝ} (ht : 0 < time)
    (threshold : Option ℝ) (b : Bool) (fuel : ℕ) :
    (H.compileRavSequence 0 time 0 threshold b fuel c.world).1 = .error .outOfFuel := by
  refine C52_rav_running hs hex hn hH le_rfl threshold b fun j _ => ?_
  have : Rav.totalTime 0 c.world.rng j = 0 := by
    unfold Rav.totalTime
    rw [List.sum_eq_zero]
    intro x hx
    obtain ⟨i, -, rfl⟩ := List.mem_map.mp hx
    rw [Rav.abs_stepTime le_rfl, zero_mul]
  rw [this]
  exact ht

/-- C52: with `time ≤ 0` there is no random part. -/
theorem C52_rav_no_time {c : Client} {Cs : List Compiler} (hs : Session 0 c Cs)
    (hex : ∀ x ∈ c.world.entries, x.toVal.Exact) (hn : 1 ≤ n) (hH : H.Of Ms) {time m : ℝ} (hm : 0 ≤ m) (ht : time ≤ 0)
    (threshold : Option ℝ) (b : Bool) (fuel : ℕ) :
    ∃ R w' compiled undo, H.compileRavSequence 0 time m threshold b fuel c.world = (.ok R, w') ∧
      w'.view R.sequence = some ⟨2 ^ n, false, compiled, undo⟩ ∧ compiled.length ≤ R.costByStep.length := by
  obtain ⟨R, w', pre, compiled, undo, h1, h2, h3, -⟩ := C52_rav_random_part (time := time) hs hex hn hH hm threshold b
    (Nat.zero_le fuel) (fun j hj => absurd hj (Nat.not_lt_zero j)) (by rw [Rav.totalTime_zero]; exact ht)
  obtain rfl := List.length_eq_zero_iff.mp h3
  obtain ⟨-, pre', compiled', undo', ts, g1, g2, g3, g4, -, -, g5, -⟩ := C52_rav_shape hs h1
  have hts : ts = [] := by
    rcases ts with _ | ⟨x, ts⟩
    · rfl
    · have := g4 0 (by simp)
      simp at this
      exact absurd this (not_lt.mpr ht)
  subst hts
  cases g2
  rw [h2, Option.some.injEq] at g1
  have := (SeqView.mk.inj g1).2.2.1
  rw [List.nil_append, List.nil_append] at this
  subst this
  exact ⟨R, w', compiled, undo, h1, h2, g5⟩

/-- C52: with a negative `max_t_step` an AssertionError is raised, for every matrix arithmetic, and nothing changes. -/
theorem C52_rav_negative (hH : H.Of Ms) {τ : Arith} {m : ℝ} (hm : m < 0) (time : ℝ) (threshold : Option ℝ) (b : Bool)
    (fuel : ℕ) (w : World) : H.compileRavSequence τ time m threshold b fuel w = (.error .assertion, w) :=
  hrav_error (C50_negative hH hm b) time threshold fuel w

/-- C52: what the client held before is unchanged, also after a failing call (and while the call is running), for every
matrix arithmetic. -/
theorem C52_rav_frame {τ : Arith} {c : Client} {Cs : List Compiler} (hs : Session τ c Cs) (H : Hamiltonian) (time m : ℝ)
    (threshold : Option ℝ) (b : Bool) (fuel : ℕ) {c' : Client}
    (hc' : c' = (c.call (H.compileRavSequence τ time m threshold b fuel) (fun _ _ => .handle) (fun _ => [])
      (fun R => [R.sequence])).2) :
    (∀ i v, c.seq i = some v → c'.seq i = some v) ∧ (∀ i v, c.entry i = some v → c'.entry i = some v) ∧
      ∀ C ∈ Cs, c'.world.annealing C = c.world.annealing C := by
  subst hc'
  exact (hrav_safe hs.ok.1.wf).1.frame hs.ok.1 hs.ok.2

/-! ## Cases that meet the hypotheses -/

/-- Random numbers that are all 1/2: with `max_t_step = 1` and `time = 1`, the random part for Pauli X and Z has two
gates, each forwards for the time 1/2. -/
example : ∃ H, Hamiltonian.Of (n := 1) [!![0, 1; 1, 0], !![1, 0; 0, -1]] H ∧
    ∃ (rng : Rng) (R : CompilerResult) (w' : World) (e0 e1 : EntryVal) (compiled : List EntryVal)
      (undo : Option (List EntryVal)),
      H.compileRavSequence 0 1 1 (some (1 / 2)) false 2 (Client.start rng).world = (.ok R, w') ∧
      w'.view R.sequence = some ⟨2, false, e0 :: e1 :: compiled, undo⟩ ∧
      Evolves 1 "0" !![0, 1; 1, 0] (1 / 2) e0 ∧ Evolves 1 "1" !![1, 0; 0, -1] (1 / 2) e1 := by
  obtain ⟨H, hH⟩ := example_xz
  let rng : Rng := ⟨fun _ => ⟨1 / 2, by norm_num⟩, fun i => i, 0, 0⟩
  have hs : Session 0 (Client.start rng) [] := .start rng
  have hex : ∀ x ∈ (Client.start rng).world.entries, x.toVal.Exact := by simp [Client.start]
  have hst : ∀ i, Rav.stepTime 1 (Client.start rng).world.rng i = 1 / 2 := by
    intro i
    show Rav.signedTime 1 (1 / 2) (1 / 2) = 1 / 2
    unfold Rav.signedTime
    rw [if_pos (by norm_num)]
    norm_num
  have htot : ∀ k, Rav.totalTime 1 (Client.start rng).world.rng k = k / 2 := by
    intro k
    unfold Rav.totalTime
    simp only [hst]
    rw [List.map_const', List.sum_replicate, List.length_range, abs_of_nonneg (by norm_num), nsmul_eq_mul]
    ring
  obtain ⟨R, w', pre, compiled, undo, h1, h2, h3, h4⟩ := C52_rav_random_part hs hex le_rfl hH (time := 1) (m := 1)
    (by norm_num) (some (1 / 2)) false (le_refl 2) (by
      intro j hj
      rw [htot]
      have : (j : ℝ) ≤ 1 := by exact_mod_cast (by omega : j ≤ 1)
      linarith) (by rw [htot]; norm_num)
  match pre, h3, h4, h2 with
  | [e0, e1], _, h4, h2 =>
    have hsub : H.termSubsets false = [[0], [1]] := by rw [C50_single, hH.length]; rfl
    obtain ⟨s0, g1, g2⟩ := h4 0 e0 rfl
    obtain ⟨s1, g3, g4⟩ := h4 1 e1 rfl
    rw [hsub] at g1 g3
    have g1 : some [0] = some s0 := g1
    have g3 : some [1] = some s1 := g3
    cases g1
    cases g3
    rw [hst, show subsetSum _ [0] = _ from add_zero _] at g2
    rw [hst, show subsetSum _ [1] = _ from add_zero _] at g4
    exact ⟨H, hH, rng, R, w', e0, e1, compiled, undo, h1, h2, g2, g4⟩

end Stoq
