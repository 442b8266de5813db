import Verif.Props.TermSubsets
import Verif.Props.Compile
import Verif.Proofs.Rav

/-!
# C51: compilation of a time evolution
-/

namespace Stoq

open World Matrix Compiler

variable {n : ℕ} {Ms : List (Matrix (Fin (2 ^ n)) (Fin (2 ^ n)) ℂ)} {H : Hamiltonian}

/-! ## The gates that can be drawn -/

theorem usable_all {τ : Arith} {H : Hamiltonian} {m : ℝ} {b : Bool} {prims : List Primitive}
    (h : H.getUnitaryPrimitives τ m b = .ok prims) : prims.filter usable = prims := by
  rw [List.filter_eq_self, primitives_eq h]
  intro p hp
  obtain ⟨s, -, rfl⟩ := List.mem_map.mp hp
  rfl

theorem Hamiltonian.Of.subsets_pos (hH : H.Of Ms) (b : Bool) : 0 < (H.termSubsets b).length := by
  have h1 : 0 < H.terms.length := List.length_pos_of_ne_nil hH.terms.2.1
  cases b
  · rw [C50_single]; simpa using h1
  · rw [C50_count]
    have := Nat.one_lt_two_pow h1.ne'
    omega

/-- Where the evolutions exist, the random gate of the compilation is read off the random numbers. -/
theorem fresh_gate_of {τ : Arith} (hH : H.Of Ms) {m : ℝ} (hm : 0 ≤ m) {b : Bool} {prims : List Primitive}
    (hp : H.getUnitaryPrimitives τ m b = .ok prims) {P : List ℕ → ℝ → EntryVal → Prop}
    (hev : ∀ s ∈ H.termSubsets b, ∀ t, -m ≤ t ∧ t ≤ m → ∃ u,
      (evolutionFamily τ (H.subsetMatrix s) (-m) m (Hamiltonian.subsetSuffix s)).asUnitary τ [t] = .ok u ∧
      EntryVal.new u ((List.range n).map Int.ofNat) = .ok ⟨u, List.range n⟩ ∧ P s t ⟨u, List.range n⟩) (r : Rng) :
    ∃ v s, createRandomEntryVal τ (2 ^ n) prims none r = (.ok v, { r with upos := r.upos + 1, npos := r.npos + 2 }) ∧
      (H.termSubsets b)[r.nat r.npos % (H.termSubsets b).length]? = some s ∧
      P s (2 * m * r.unif r.upos - m) v := by
  have hlen : prims.length = (H.termSubsets b).length := by rw [primitives_eq hp, List.length_map]
  have hlt : r.nat r.npos % (H.termSubsets b).length < (H.termSubsets b).length :=
    Nat.mod_lt _ (hH.subsets_pos b)
  have hs := List.getElem?_eq_getElem hlt
  generalize (H.termSubsets b)[r.nat r.npos % (H.termSubsets b).length]'hlt = s at hs
  have hu := (r.unif r.upos).2
  have hrange : -m ≤ 2 * m * r.unif r.upos - m ∧ 2 * m * r.unif r.upos - m ≤ m := by
    constructor
    · have := mul_nonneg (mul_nonneg zero_le_two hm) hu.1; linarith
    · have := mul_le_mul_of_nonneg_left hu.2.le (mul_nonneg zero_le_two hm); linarith
  obtain ⟨u, hu1, hu2, hu3⟩ := hev s (List.mem_of_getElem? hs) _ hrange
  refine ⟨_, s, ?_, hs, hu3⟩
  have hget : prims[r.nat r.npos % (H.termSubsets b).length]? = some (H.subsetPrimitive τ m s) := by
    rw [primitives_eq hp, List.getElem?_map, hs]; rfl
  rw [createRandomEntryVal_eq, usable_all hp, hlen]
  have hc : Rng.choiceOpt (H.termSubsets b).length none r =
      (.ok (r.nat r.npos % (H.termSubsets b).length), { r with npos := r.npos + 1 }) := by
    unfold Rng.choiceOpt Rng.choice
    rw [raiseUnless_of (hH.subsets_pos b)]; rfl
  rw [PyM.bind_of_ok hc, hget]
  simp only
  have hpick : pickUnitary τ (H.subsetPrimitive τ m s) { r with npos := r.npos + 1 } =
      (.ok u, { r with upos := r.upos + 1, npos := r.npos + 1 }) := by
    unfold pickUnitary
    have hv : randomParameterValues (evolutionFamily τ (H.subsetMatrix s) (-m) m
        (Hamiltonian.subsetSuffix s)).parameters { r with npos := r.npos + 1 } =
        (.ok [2 * m * r.unif r.upos - m], { r with upos := r.upos + 1, npos := r.npos + 1 }) := by
      show (Except.ok [(r.unif r.upos : ℝ) * (m - -m) + -m], _) = _
      congr 3
      ring
    simp only [Hamiltonian.subsetPrimitive]
    rw [PyM.bind_of_ok hv, hu1]
    rfl
  rw [PyM.bind_of_ok hpick]
  unfold pickQubits
  simp only [Hamiltonian.subsetPrimitive, List.length_singleton]
  have hc2 : Rng.choice 1 { r with upos := r.upos + 1, npos := r.npos + 1 } =
      (.ok 0, { r with upos := r.upos + 1, npos := r.npos + 2 }) := by
    unfold Rng.choice
    rw [raiseUnless_of one_pos]
    show (Except.ok (r.nat (r.npos + 1) % 1), _) = _
    rw [Nat.mod_one]
  rw [PyM.bind_of_ok hc2]
  simp only [List.getElem?_cons_zero]
  rw [hH.applyTo, hu2]
  rfl

/-- The evolutions in exact arithmetic. -/
theorem family_exact (hn : 1 ≤ n) (hH : H.Of Ms) {m : ℝ} (hm : 0 ≤ m) {b : Bool} {s : List ℕ}
    (hs : s ∈ H.termSubsets b) {t : ℝ} (ht : -m ≤ t ∧ t ≤ m) :
    ∃ u, (evolutionFamily 0 (H.subsetMatrix s) (-m) m (Hamiltonian.subsetSuffix s)).asUnitary 0 [t] = .ok u ∧
      EntryVal.new u ((List.range n).map Int.ofNat) = .ok ⟨u, List.range n⟩ ∧
      Evolves n (Hamiltonian.subsetSuffix s) (subsetSum Ms s) t ⟨u, List.range n⟩ := by
  obtain ⟨-, ⟨-, pu, hpu, -, hev, -⟩, -⟩ := subset_primitive hn hH hm (hH.subset_lt hs).2
  have hpu' : pu = evolutionFamily 0 (H.subsetMatrix s) (-m) m (Hamiltonian.subsetSuffix s) := by
    have : (Sum.inr _ : Unitary ⊕ ParamUnitary) = Sum.inr pu := hpu
    exact (Sum.inr.inj this).symm
  obtain ⟨u, hu1, hu2⟩ := hev t ht
  exact ⟨u, by rw [← hpu', hu1], entryNew_range_eq hn hu2.exact, hu2⟩

/-- The random gate of the compilation, read off the random numbers: the subset is chosen uniformly, then the time
uniformly in `[-m, m)`; one more number is used to choose among the single list of qubits. -/
theorem fresh_gate (hn : 1 ≤ n) (hH : H.Of Ms) {m : ℝ} (hm : 0 ≤ m) {b : Bool} {prims : List Primitive}
    (hp : H.getUnitaryPrimitives 0 m b = .ok prims) (r : Rng) :
    ∃ v s, createRandomEntryVal 0 (2 ^ n) prims none r = (.ok v, { r with upos := r.upos + 1, npos := r.npos + 2 }) ∧
      (H.termSubsets b)[r.nat r.npos % (H.termSubsets b).length]? = some s ∧
      Evolves n (Hamiltonian.subsetSuffix s) (subsetSum Ms s) (2 * m * r.unif r.upos - m) v :=
  fresh_gate_of hH hm hp (P := fun s t v => Evolves n (Hamiltonian.subsetSuffix s) (subsetSum Ms s) t v)
    (fun _ hs _ ht => family_exact hn hH hm hs ht) r

/-- C51: which gates a compilation can draw, for every matrix arithmetic: evolutions for a time `t` of
`[-max_t_step, max_t_step]` on all qubits, labelled by a subset of terms; the matrix is the time evolution under the
sum of the terms of the subset. -/
def StoqGate (τ : Arith) (H : Hamiltonian) (b : Bool) (m t : ℝ) (v : EntryVal) : Prop :=
  ∃ s ∈ H.termSubsets b, -m ≤ t ∧ t ≤ m ∧ v.applyTo = List.range H.getQubitCount ∧
    v.unitary.operationName = "H" ++ Hamiltonian.subsetSuffix s ∧ v.unitary.parameterDict = [("t", (t, false))] ∧
    v.unitary.isInverse = false ∧
    (evolutionFamily τ (H.subsetMatrix s) (-m) m (Hamiltonian.subsetSuffix s)).asUnitary τ [t] = .ok v.unitary

theorem map_ofNat_range {l : List ℕ} {k : ℕ} (h : l.map Int.ofNat = (List.range k).map Int.ofNat) :
    l = List.range k := List.map_injective_iff.mpr Int.ofNat_injective h

theorem stoqGate_of_family {τ : Arith} {H : Hamiltonian} {b : Bool} {m : ℝ} {v : EntryVal} {s : List ℕ}
    (hs : s ∈ H.termSubsets b) {values : List ℝ}
    (h : (evolutionFamily τ (H.subsetMatrix s) (-m) m (Hamiltonian.subsetSuffix s)).asUnitary τ values =
      .ok v.unitary) (hq : v.applyTo = List.range H.getQubitCount) : ∃ t, values = [t] ∧ StoqGate τ H b m t v := by
  obtain ⟨t, rfl, h1, h2, h3, h4, h5⟩ := family_ok h
  exact ⟨t, rfl, s, hs, h1, h2, hq, h3, h4, h5, h⟩

theorem generated_stoqGate {τ : Arith} {H : Hamiltonian} {m : ℝ} {b : Bool} {prims : List Primitive}
    (hp : H.getUnitaryPrimitives τ m b = .ok prims) {D : ℕ} {v : EntryVal} (h : Generated τ D prims none v) :
    ∃ t, StoqGate τ H b m t v := by
  obtain ⟨-, p, hp1, -, hp2, hp3⟩ := generated_from h
  rw [primitives_eq hp] at hp1
  obtain ⟨s, hs, rfl⟩ := List.mem_map.mp hp1
  obtain ⟨values, -, -, h3⟩ := hp2
  have : v.applyTo.map Int.ofNat ∈ [H.applyTo] := hp3
  obtain ⟨t, -, h⟩ := stoqGate_of_family hs h3 (map_ofNat_range (List.mem_singleton.mp this))
  exact ⟨t, h⟩

/-- C51: in exact arithmetic such a gate is the evolution under the sum of the terms of the subset. -/
theorem StoqGate.evolves (hn : 1 ≤ n) (hH : H.Of Ms) {b : Bool} {m t : ℝ} {v : EntryVal}
    (h : StoqGate 0 H b m t v) : ∃ s ∈ H.termSubsets b, -m ≤ t ∧ t ≤ m ∧ Evolves n (Hamiltonian.subsetSuffix s) (subsetSum Ms s) t v := by
  obtain ⟨s, hs, h1, h2, h3, -, -, -, h4⟩ := h
  refine ⟨s, hs, h1, h2, ?_⟩
  have hm : 0 ≤ m := by linarith
  obtain ⟨-, ⟨-, pu, hpu, -, hev, -⟩, -⟩ := subset_primitive hn hH hm (hH.subset_lt hs).2
  obtain ⟨u, g1, g2⟩ := hev t ⟨h1, h2⟩
  have hpu' : pu = evolutionFamily 0 (H.subsetMatrix s) (-m) m (Hamiltonian.subsetSuffix s) := by
    have : (Sum.inr _ : Unitary ⊕ ParamUnitary) = Sum.inr pu := hpu
    exact (Sum.inr.inj this).symm
  rw [hpu', h4] at g1
  cases g1
  rw [hH.qubits] at h3
  obtain ⟨u, a⟩ := v
  simp only at h3
  subst h3
  exact g2

/-! ## C51 -/

/-- A successful call has passed the checks of the primitives and of the compiler. -/
theorem stoq_split {τ : Arith} {c : Client} {Cs : List Compiler} (hs : Session τ c Cs) {H : Hamiltonian} {t m : ℝ}
    {threshold : Option ℝ} {b : Bool} {R : CompilerResult} {w' : World}
    (h : H.compileStoqSequence τ t m threshold b c.world = (.ok R, w')) :
    ∃ target prims C, H.getTimeEvolutionOperator τ t = .ok target ∧ H.getUnitaryPrimitives τ m b = .ok prims ∧
      C.dimension = H.dimension ∧ C.annealingRate = 0.1 ∧
      CompilePost τ (Generated τ H.dimension prims none) ((ravCompiler H.dimension prims false none 0.5 0).proposal τ)
        C target threshold 10000 { c.world with betas := c.world.betas ++ [0] } 0 (.ok R) w' := by
  rcases ht : H.getTimeEvolutionOperator τ t with e | target
  · unfold Hamiltonian.compileStoqSequence at h
    rw [ht] at h
    cases h
  rcases hp : H.getUnitaryPrimitives τ m b with e | prims
  · have h2 : H.compileStoqSequence τ t m threshold b c.world = (.error e, c.world) := by
      unfold Hamiltonian.compileStoqSequence
      rw [ht]
      exact stoqTarget_error hp target threshold c.world
    rw [h2] at h
    cases h
  rw [stoq_ok ht hp] at h
  obtain ⟨h1, h2⟩ := newCompile_ok τ H.dimension prims false none 0.5 threshold 10000 c.world target hs.ok.1.wf
  by_cases hT : CompilerUsable H.dimension prims false
  · obtain ⟨C, g1, g2, -, -, g3⟩ := h1 hT
    rw [h] at g3
    exact ⟨target, prims, C, rfl, rfl, g1, g2, g3⟩
  · obtain ⟨e, g | g⟩ := h2 hT
    · rw [h] at g; cases g
    · rw [h] at g; cases g

/-- C51: a successful `compile_stoq_sequence` returns a new sequence whose gates are all evolutions under a subset of
the terms for a time of `[-max_t_step, max_t_step]`; at most 10000 costs are recorded, there are no more gates than
costs, and the product is close to the time evolution operator or 10000 costs are recorded.  For every matrix
arithmetic. -/
theorem C51_stoq_shape {τ : Arith} {c : Client} {Cs : List Compiler} (hs : Session τ c Cs) {H : Hamiltonian} {t m : ℝ}
    {threshold : Option ℝ} {b : Bool} {R : CompilerResult} {w' : World}
    (h : H.compileStoqSequence τ t m threshold b c.world = (.ok R, w')) :
    c.world.view R.sequence = none ∧ (∃ es undo, w'.view R.sequence = some ⟨H.dimension, false, es, undo⟩ ∧
      (∀ e ∈ es, ∃ t', StoqGate τ H b m t' e) ∧ es.length ≤ R.costByStep.length) ∧ R.costByStep.length ≤ 10000 ∧
      ((∃ p target, H.getTimeEvolutionOperator τ t = .ok target ∧ Seq.product τ R.sequence w' = (.ok p, w') ∧
        p.closeTo τ target threshold = .ok true) ∨ R.costByStep.length = 10000) := by
  obtain ⟨target, prims, C, h1, h2, h3, h4, hp⟩ := stoq_split hs h
  obtain ⟨g1, g2⟩ := close_or_full hp
  obtain ⟨k1, -, -, o, b', k2, k3, k4, -, k5⟩ := hp.ok R rfl
  have hall := Metropolis.Walk.inv (P := fun g => (∀ v ∈ g, Generated τ H.dimension prims none v))
      (fun _ _ _ _ hg h => proposal_forall (C := ravCompiler H.dimension prims false none 0.5 0) hg h) k5 (by simp)
  refine ⟨?_, ⟨_, _, view_eq_some.mpr ⟨o, k2, by rw [viewOf, k3, k4, h3]⟩, fun e he => ?_, ?_⟩, ?_, ?_⟩
  · unfold World.view
    rw [k1]
    simp only
    rw [List.getElem?_eq_none le_rfl]; rfl
  · exact generated_stoqGate h2 (hall e he)
  · simpa using Metropolis.Walk.length
      (fun _ _ _ _ h => proposal_length (C := ravCompiler H.dimension prims false none 0.5 0) h) k5
  · have : max (10000 : ℤ) 0 = 10000 := rfl
    rw [this] at g1
    exact_mod_cast g1
  · have : max (10000 : ℤ) 0 = 10000 := rfl
    rw [this] at g2
    rcases g2 with ⟨p, g2, g3⟩ | g2
    · exact .inl ⟨p, target, h1, g2, g3⟩
    · exact .inr (by exact_mod_cast g2)

/-- C51: in exact arithmetic `compile_stoq_sequence` performs exactly the walk of the specification towards the time
evolution operator, with at most 10000 steps, started from no gates at inverse temperature 0, with increments 0.1 and
append probability 1/2; each new gate is an evolution under a subset of the terms chosen uniformly by one random
number for the time `2 m u - m` given by another. -/
theorem C51_stoq_is_walk {c : Client} {Cs : List Compiler} (hs : Session 0 c Cs)
    (hex : ∀ x ∈ c.world.entries, x.toVal.Exact) (hn : 1 ≤ n) (hH : H.Of Ms) (t : ℝ) {m : ℝ} (hm : 0 ≤ m)
    (threshold : Option ℝ) (b : Bool) :
    ∃ (gen : PyM Rng EntryVal) (C : Compiler) (target : Unitary),
      (∀ r : Rng, ∃ v s, gen r = (.ok v, { r with upos := r.upos + 1, npos := r.npos + 2 }) ∧
        (H.termSubsets b)[r.nat r.npos % (H.termSubsets b).length]? = some s ∧
        Evolves n (Hamiltonian.subsetSuffix s) (subsetSum Ms s) (2 * m * r.unif r.upos - m) v) ∧
      C.annealingRate = 0.1 ∧ target.Exact (2 ^ n) ∧
      SamePhase (target.matrix.toMatrix (2 ^ n)) (evolution Ms.sum t) ∧
      FollowsWalk n C target threshold 10000 (Metropolis.propose 0.5 (Metropolis.one gen) 1) 0 c.world
        (H.compileStoqSequence 0 t m threshold b c.world) := by
  obtain ⟨prims, hp, hval, -⟩ := C50_primitives hn hH hm b
  obtain ⟨g1, g2⟩ := hH.total
  obtain ⟨target, h1, h2, h3, -⟩ := C29_evolution (by positivity) g1 g2 t ""
  have hD := hH.terms.1
  have hT : CompilerUsable H.dimension prims false := by
    refine ⟨⟨by rw [hD]; positivity, fun q hq => by rw [hD]; exact valid_dimension (hval q hq)⟩, ?_, by simp⟩
    rw [primitives_eq hp]
    intro h
    have := hH.subsets_pos b
    rw [List.map_eq_nil_iff.mp h] at this
    exact lt_irrefl _ this
  obtain ⟨C, k1, k2, k3, -, k4⟩ := (newCompile_ok 0 H.dimension prims false none 0.5 threshold 10000 c.world target
    hs.ok.1.wf).1 hT
  refine ⟨createRandomEntryVal 0 (2 ^ n) prims none, C, target, fun r => fresh_gate hn hH hm hp r, k2, h2, h3, ?_⟩
  rw [stoq_ok h1 hp]
  have := follows_of_post (w := { c.world with betas := c.world.betas ++ [0] }) (k1.trans hD) (by rw [k3, k1]) hex
    (fun v hv => generated_good hval (by rw [← hD]; exact hv)) h2 k4
  rw [show (ravCompiler H.dimension prims false none 0.5 0).proposal 0 =
    Metropolis.propose 0.5 (Metropolis.one (createRandomEntryVal 0 (2 ^ n) prims none)) 1 by rw [hD]; rfl] at this
  exact this

/-- C51: with `max_t_step ≥ 0` it never raises an exception, whatever the random outcomes. -/
theorem C51_stoq_never_raises {c : Client} {Cs : List Compiler} (hs : Session 0 c Cs)
    (hex : ∀ x ∈ c.world.entries, x.toVal.Exact) (hn : 1 ≤ n) (hH : H.Of Ms) (t : ℝ) {m : ℝ} (hm : 0 ≤ m)
    (threshold : Option ℝ) (b : Bool) :
    ∃ R w', H.compileStoqSequence 0 t m threshold b c.world = (.ok R, w') := by
  obtain ⟨gen, C, target, h1, h2, -, -, h3⟩ := C51_stoq_is_walk hs hex hn hH t hm threshold b
  obtain ⟨tr, r, hrun⟩ := Metropolis.run_ok (n := n) (T := target.matrix.toMatrix (2 ^ n)) (threshold := threshold)
    (rate := C.annealingRate) (cap := ((2 : ℝ) ^ 2 ^ n) ^ 2)
    (prop := Metropolis.propose 0.5 (Metropolis.one gen) 1) (P := fun _ => True) (k := (10000 : ℤ).toNat)
    (st := ⟨[], 0⟩) (fun g r _ => by
      obtain ⟨new, r', h⟩ := Metropolis.propose_ok (p := 0.5) (by norm_num) (fun r => by
        obtain ⟨v, s, h, -⟩ := h1 r
        exact ⟨[v], _, Metropolis.one_ok_iff.mpr ⟨v, h, rfl⟩⟩) 1 g r
      exact ⟨new, r', h, trivial⟩) c.world.rng trivial
  unfold FollowsWalk at h3
  rw [hrun] at h3
  obtain ⟨-, R, h4, -⟩ := h3
  exact ⟨R, _, Prod.ext h4 rfl⟩

/-- C51: in exact arithmetic, every gate is an evolution under the sum of a subset of the terms for a time of
`[-max_t_step, max_t_step]`, the last cost is the distance of the product from the time evolution, and this distance is
within the threshold if fewer than 10000 costs were recorded. -/
theorem C51_stoq_distance {c : Client} {Cs : List Compiler} (hs : Session 0 c Cs)
    (hex : ∀ x ∈ c.world.entries, x.toVal.Exact) (hn : 1 ≤ n) (hH : H.Of Ms) {t m : ℝ}
    {threshold : Option ℝ} {b : Bool} {R : CompilerResult} {w' : World} (hm : 0 ≤ m)
    (h : H.compileStoqSequence 0 t m threshold b c.world = (.ok R, w')) :
    ∃ es undo p, w'.view R.sequence = some ⟨2 ^ n, false, es, undo⟩ ∧
      (∀ e ∈ es, ∃ s ∈ H.termSubsets b, ∃ t', -m ≤ t' ∧ t' ≤ m ∧
        Evolves n (Hamiltonian.subsetSuffix s) (subsetSum Ms s) t' e) ∧
      (Seq.product 0 R.sequence w').1 = .ok p ∧ p.Holds (circuit n es) ∧
      (∀ x, R.costByStep.getLast? = some x → x = 1 - overlap (evolution Ms.sum t) (circuit n es)) ∧
      (R.costByStep.length < 10000 →
        Metropolis.GoodEnough threshold (1 - overlap (evolution Ms.sum t) (circuit n es))) := by
  obtain ⟨gen, C, target, h1, h2, h3, h4, h5⟩ := C51_stoq_is_walk hs hex hn hH t hm threshold b
  obtain ⟨-, ⟨es, undo, k1, k2, -⟩, -⟩ := C51_stoq_shape hs h
  rw [h] at h5
  unfold FollowsWalk at h5
  revert h5
  rcases hrun : Metropolis.run n (target.matrix.toMatrix (2 ^ n)) threshold C.annealingRate (((2 : ℝ) ^ 2 ^ n) ^ 2)
    (Metropolis.propose 0.5 (Metropolis.one gen) 1) (10000 : ℤ).toNat ⟨[], 0⟩ c.world.rng with ⟨e | tr, r⟩
  · rintro ⟨h5, -⟩
    cases h5
  rintro ⟨-, R', h6, h7, ⟨undo', h8⟩, -, ⟨p, h9, h10⟩, -⟩
  cases h6
  simp only at h8 h9
  rw [k1, Option.some.injEq] at h8
  have hes : es = (tr.getLast?.getD ⟨[], 0⟩).gates := (SeqView.mk.inj h8).2.2.1
  have hcost : ∀ g, Metropolis.cost n (target.matrix.toMatrix (2 ^ n)) g =
      1 - overlap (evolution Ms.sum t) (circuit n g) := by
    intro g
    unfold Metropolis.cost
    rw [overlap_congr h4 (.refl _)]
  refine ⟨es, undo, p, by rw [k1, hH.terms.1], fun e he => ?_, h9, hes ▸ h10, ?_, ?_⟩
  · obtain ⟨t', h⟩ := k2 e he
    obtain ⟨s, h1, h2, h3, h4⟩ := h.evolves hn hH
    exact ⟨s, h1, t', h2, h3, h4⟩
  · intro x hx
    rw [h7, List.getLast?_map] at hx
    obtain ⟨st, hst, rfl⟩ := Option.map_eq_some_iff.mp hx
    rw [hcost, hes, hst]
    rfl
  · intro hlt
    have := Metropolis.run_stop hrun (by rw [h7, List.length_map] at hlt; exact hlt)
    rw [hcost, ← hes] at this
    exact this

/-- C51: with a negative `max_t_step` an AssertionError is raised, for every matrix arithmetic for which the time
evolution operator can be computed, and nothing changes. -/
theorem C51_stoq_negative (hH : H.Of Ms) {τ : Arith} {t m : ℝ} {target : Unitary}
    (ht : H.getTimeEvolutionOperator τ t = .ok target) (hm : m < 0) (threshold : Option ℝ) (b : Bool) (w : World) :
    H.compileStoqSequence τ t m threshold b w = (.error .assertion, w) := by
  unfold Hamiltonian.compileStoqSequence
  rw [ht]
  exact stoqTarget_error (C50_negative hH hm b) target threshold w

/-- C51: what the client held before is unchanged, also after a failing call, for every matrix arithmetic. -/
theorem C51_stoq_frame {τ : Arith} {c : Client} {Cs : List Compiler} (hs : Session τ c Cs) (H : Hamiltonian) (t m : ℝ)
    (threshold : Option ℝ) (b : Bool) {c' : Client} (hc' : c' = (c.call (H.compileStoqSequence τ t m threshold b)
      (fun _ _ => .handle) (fun _ => []) (fun R => [R.sequence])).2) :
    (∀ i v, c.seq i = some v → c'.seq i = some v) ∧ (∀ i v, c.entry i = some v → c'.entry i = some v) ∧
      ∀ C ∈ Cs, c'.world.annealing C = c.world.annealing C := by
  subst hc'
  exact (stoq_safe hs.ok.1.wf).1.frame hs.ok.1 hs.ok.2

/-! ## Cases that meet the hypotheses -/

/-- Compilation of the evolution under Pauli X plus Pauli Z, in a new session: it always succeeds, and with threshold
1/2 and fewer than 10000 costs the overlap is at least 1/2. -/
example (rng : Rng) : ∃ H, Hamiltonian.Of (n := 1) [!![0, 1; 1, 0], !![1, 0; 0, -1]] H ∧
    ∃ R w' es undo, H.compileStoqSequence 0 2 (1 / 4) (some (1 / 2)) true (Client.start rng).world = (.ok R, w') ∧
      w'.view R.sequence = some ⟨2, false, es, undo⟩ ∧ es.length ≤ 10000 ∧ (R.costByStep.length < 10000 →
        1 / 2 ≤ overlap (evolution !![1, 1; 1, -1] 2) (circuit 1 es)) := by
  obtain ⟨H, hH⟩ := example_xz
  have hs : Session 0 (Client.start rng) [] := .start rng
  have hex : ∀ x ∈ (Client.start rng).world.entries, x.toVal.Exact := by simp [Client.start]
  obtain ⟨R, w', h⟩ := C51_stoq_never_raises hs hex le_rfl hH 2 (m := 1 / 4) (by norm_num) (some (1 / 2)) true
  obtain ⟨-, ⟨es, undo, h1, -, h2⟩, h3, -⟩ := C51_stoq_shape hs h
  obtain ⟨es', undo', p, g1, -, -, -, -, g2⟩ := C51_stoq_distance hs hex le_rfl hH (by norm_num) h
  rw [h1, hH.terms.1, Option.some.injEq] at g1
  obtain rfl : es = es' := (SeqView.mk.inj g1).2.2.1
  refine ⟨H, hH, R, w', es, undo, h, by rw [h1, hH.terms.1]; rfl, h2.trans h3, fun hlt => ?_⟩
  have := g2 hlt
  have e : ([!![(0 : ℂ), 1; 1, 0], !![1, 0; 0, -1]] : List (Matrix (Fin (2 ^ 1)) (Fin (2 ^ 1)) ℂ)).sum =
      !![1, 1; 1, -1] := by
    ext i j
    fin_cases i <;> fin_cases j <;> simp
  rw [e] at this
  simp only [Metropolis.GoodEnough] at this
  linarith

end Stoq
