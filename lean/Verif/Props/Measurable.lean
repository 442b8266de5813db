import Verif.Proofs.MeasurableGates
import Verif.Props.ContinuousRav
import Verif.Props.RavLength

/-!
# C88: what the compilations return are events

`Rng.tapes B` is a probability measure; for a set that is not measurable it gives only an outer bound.  Here the sets
the other properties speak of are shown to be measurable, also for gates with parameters.  So the probabilities of
success and failure add up to one, and the bounds on the probability of success are bounds on the probability of failure.
-/

namespace Stoq

open MeasureTheory World Compiler Matrix Verification Rng

variable {n : ℕ}

/-- What can be measured of a result: the number of gates, the overlap of their product with a matrix `V`, the number of
recorded costs and the costs. -/
noncomputable def observed (n : ℕ) (V : Matrix (Fin (2 ^ n)) (Fin (2 ^ n)) ℂ) (gates : List EntryVal) (costs : List ℝ) :
    (ℕ × ℝ) × ℕ × (ℕ → ℝ) :=
  ((gates.length, overlap V (circuit n gates)), costs.length, fun i => (costs[i]?).getD 0)

/-- Every measurable property of the result is an event. -/
def ResultEvents (n : ℕ) (M : Rng.Tape → Except PyErr CompilerResult × World) : Prop :=
  ∀ (V : Matrix (Fin (2 ^ n)) (Fin (2 ^ n)) ℂ) (S : Set ((ℕ × ℝ) × ℕ × (ℕ → ℝ))), MeasurableSet S →
    MeasurableSet {t | ∃ gates costs, ReturnsGates gates costs (M t) ∧ observed n V gates costs ∈ S}

/-- The gates and costs of a result as keys. -/
noncomputable def resultKey (n : ℕ) (x : List EntryVal × List ℝ) := (gatesKey n x.1, listKey 0 (fun x : ℝ => x) x.2)

theorem events_of_meas {m : PyM Rng (List EntryVal × List ℝ)} (hm : ∀ {γ : Type} [MeasurableSpace γ], Meas (resultKey n) fun _ : γ => m)
    {M : Rng.Tape → Except PyErr CompilerResult × World}
    (h : ∀ t gates costs, ReturnsGates gates costs (M t) ↔ ∃ r', m (Rng.start t) = (.ok (gates, costs), r')) :
    ResultEvents n M := by
  intro V S hS
  have hprog : Meas (fun x : (ℕ × ℝ) × ℕ × (ℕ → ℝ) => x) fun _ : Unit => (m >>= fun x => Pure.pure (observed n V x.1 x.2) :
      PyM Rng ((ℕ × ℝ) × ℕ × (ℕ → ℝ))) := by
    refine hm.bind fun x hx => Meas.pure ?_
    have h1 : Measurable fun p => gatesKey n (x p).1 := hx.fst
    have h2 : Measurable fun p => listKey 0 (fun x : ℝ => x) (x p).2 := hx.snd
    refine ((measurable_list.mp h1).1.prodMk (measurable_overlap measurable_const (measurable_circuit h1))).prodMk
      ((measurable_list.mp h2).1.prodMk (measurable_pi_iff.mpr fun i => ?_))
    have := (measurable_list.mp h2).2 i
    have e : (fun p => ((x p).2[i]?).getD 0) = fun p => ((x p).2[i]?).elim 0 fun x : ℝ => x := by
      funext p
      cases (x p).2[i]? <;> rfl
    rw [e]; exact this
  have hev := hprog.event (S := Set.univ ×ˢ S) (MeasurableSet.univ.prod hS)
  have hpre := (measurable_const (a := ())).prodMk (measurable_id' (α := Rng.Tape)) hev
  convert hpre using 1
  ext t
  simp only [Set.mem_ofPred_eq, Set.mem_preimage, Set.mem_prod, Set.mem_univ, true_and]
  constructor
  · rintro ⟨gates, costs, hr, hs⟩
    obtain ⟨r', hr⟩ := (h t gates costs).mp hr
    exact ⟨_, r', by rw [PyM.bind_of_ok hr]; rfl, hs⟩
  · rintro ⟨a, r', hr, hs⟩
    rw [PyM.bind_eq_ok_iff] at hr
    obtain ⟨⟨gates, costs⟩, r1, hr1, hr2⟩ := hr
    cases hr2
    exact ⟨gates, costs, (h t gates costs).mpr ⟨_, hr1⟩, hs⟩

theorem events_of_walk {rate : ℝ} {target : Unitary} {threshold : Option ℝ} {m : ℤ}
    {prop : List EntryVal → PyM Rng (List EntryVal)} {b : ℝ} {w : World} {M : PyM World CompilerResult}
    (h : ∀ t, ∃ C : Compiler, C.annealingRate = rate ∧
      FollowsWalk n C target threshold m prop b (w.reseed t) (M (w.reseed t)))
    (hp : Metropolis.ProposesMeas n prop) : ResultEvents n fun t => M (w.reseed t) := by
  set T := target.matrix.toMatrix (2 ^ n) with hT
  refine events_of_meas (m := Metropolis.run n T threshold rate (((2 : ℝ) ^ 2 ^ n) ^ 2) prop m.toNat ⟨[], b⟩ >>=
    fun tr => Pure.pure ((tr.getLast?.getD ⟨[], 0⟩).gates, tr.map fun st => Metropolis.cost n T st.gates)) ?_ ?_
  · intro γ _
    refine (Metropolis.run_meas hp threshold _ _ m.toNat (T := fun _ : γ => T) (st := fun _ => ⟨[], b⟩) measurable_const
      measurable_const).bind fun tr htr => Meas.pure ?_
    exact (Metropolis.measurable_last htr).prodMk (Metropolis.measurable_costs (T := fun _ => T) measurable_const htr)
  · intro t gates costs
    obtain ⟨C, hrate, ht⟩ := h t
    unfold FollowsWalk at ht
    rw [show (w.reseed t).rng = Rng.start t from rfl, ← hT, hrate] at ht
    rcases hx : Metropolis.run n T threshold rate (((2 : ℝ) ^ 2 ^ n) ^ 2) prop m.toNat ⟨[], b⟩ (Rng.start t)
      with ⟨e | tr, r'⟩
    · rw [hx] at ht
      constructor
      · rintro ⟨R, hR, -⟩
        rw [ht.1] at hR
        cases hR
      · rintro ⟨r1, hr⟩
        rw [PyM.bind_of_error hx] at hr
        cases hr
    · rw [hx] at ht
      obtain ⟨-, R, hR, hc, ⟨undo, hv⟩, -⟩ := ht
      have hg : (tr.getLast?.getD ⟨[], b⟩).gates = (tr.getLast?.getD ⟨[], 0⟩).gates := by
        cases tr.getLast? <;> rfl
      rw [PyM.bind_of_ok hx]
      constructor
      · rintro ⟨R', hR', hc', v, hv', hg'⟩
        rw [hR] at hR'
        cases hR'
        rw [hv] at hv'
        cases hv'
        subst hg'
        rw [hc] at hc'
        subst hc'
        exact ⟨_, by rw [hg]; rfl⟩
      · rintro ⟨r1, hr⟩
        cases hr
        exact ⟨R, hR, hc, _, hv, hg⟩

theorem events_of_plan {random : PyM Rng (List EntryVal)} {prop : List EntryVal → PyM Rng (List EntryVal)}
    {rate cap : ℝ} {threshold : Option ℝ} {skip : Prop} {m : ℤ} {w : World} {M : PyM World CompilerResult}
    (h : ∀ t, FollowsPlan n (Rav.plan n random prop rate cap threshold skip m) (w.reseed t) (M (w.reseed t)))
    (hr : ∀ {γ : Type} [MeasurableSpace γ], Meas (gatesKey n) fun _ : γ => random)
    (hp : Metropolis.ProposesMeas n prop) : ResultEvents n fun t => M (w.reseed t) := by
  refine events_of_meas (m := Rav.plan n random prop rate cap threshold skip m >>= fun x => Pure.pure
    (x.1 ++ Rav.final x.2, x.2.map fun st => Metropolis.cost n (circuit n x.1)ᴴ st.gates)) ?_ ?_
  · intro γ _
    refine (Rav.plan_meas hr hp rate cap threshold skip m).bind fun x hx => Meas.pure ?_
    have h1 : Measurable fun p => gatesKey n (x p).1 := hx.fst
    have h2 : Measurable fun p => Metropolis.walkKey n (x p).2 := hx.snd
    exact (measurable_append h1 (Metropolis.measurable_last h2)).prodMk
      (Metropolis.measurable_costs (measurable_dbl_conjTranspose (measurable_circuit h1)) h2)
  · intro t gates costs
    have ht := h t
    unfold FollowsPlan at ht
    rw [show (w.reseed t).rng = Rng.start t from rfl] at ht
    rcases hx : Rav.plan n random prop rate cap threshold skip m (Rng.start t) with ⟨e | ⟨pre, walk⟩, r'⟩
    · rw [hx] at ht
      constructor
      · rintro ⟨R, hR, -⟩
        rw [ht.1] at hR
        cases hR
      · rintro ⟨r1, hr⟩
        rw [PyM.bind_of_error hx] at hr
        cases hr
    · rw [hx] at ht
      obtain ⟨-, R, hR, hc, ⟨undo, hv⟩, -⟩ := ht
      rw [PyM.bind_of_ok hx]
      constructor
      · rintro ⟨R', hR', hc', v, hv', hg'⟩
        rw [hR] at hR'
        cases hR'
        rw [hv] at hv'
        cases hv'
        subst hg'
        rw [hc] at hc'
        subst hc'
        exact ⟨_, rfl⟩
      · rintro ⟨r1, hr⟩
        cases hr
        exact ⟨R, hR, hc, _, hv, rfl⟩

/-! ## The candidates -/

theorem proposal_meas {prims : List Primitive} {probs : Option (List ℝ)} (hv : ∀ p ∈ prims, p.Valid n)
    (hc : ∀ p ∈ prims, p.Continuous) (p : ℝ) : Metropolis.ProposesMeas n
      (Metropolis.propose p (Metropolis.one (createRandomEntryVal 0 (2 ^ n) prims probs)) 1) := by
  intro γ _ g hg
  exact Metropolis.propose_meas (Metropolis.one_meas (createRandomEntryVal_meas probs hv hc)) 1 hg

theorem layer_meas' {counts : List (Primitive × ℤ)} (hv : ∀ pc ∈ counts, pc.1.Valid n)
    (hc : ∀ pc ∈ counts, 0 < pc.2 → pc.1.Continuous) {γ : Type} [MeasurableSpace γ] : Meas (gatesKey n) fun _ : γ =>
      Metropolis.layer (fun q => createRandomEntryVal 0 (2 ^ n) [q] none) counts := by
  refine Metropolis.layer_meas fun pc hpc h0 => ?_
  intro γ _
  exact createRandomEntryVal_meas none (by simpa using hv pc hpc) (by simpa using hc pc hpc h0)

/-! ## Compilations -/

/-- C88: every measurable property of the result of `compile` is an event. -/
theorem C88_compile {c : Client} {Cs : List Compiler} (hs : Session 0 c Cs) (hex : ∀ x ∈ c.world.entries, x.toVal.Exact)
    {C : Compiler} (hC : C ∈ Cs) (hD : C.dimension = 2 ^ n) (hprims : ∀ q ∈ C.primitives, q.Valid n)
    (hcont : ∀ q ∈ C.primitives, q.Continuous) (hT : C.Truthy) {target : Unitary} (ht : target.Exact (2 ^ n))
    (threshold : Option ℝ) (m : ℤ) : ResultEvents n fun t => C.compile 0 target threshold m (c.world.reseed t) := by
  obtain ⟨b, hb, -, -⟩ := hs.ok.2.alive C hC
  refine events_of_walk (M := C.compile 0 target threshold m) (prop := C.proposal 0) (b := b) (target := target)
    (threshold := threshold) (m := m) (fun t => ⟨C, rfl, ?_⟩) ?_
  · exact follows_of_post hD (hs.ok.2.dim C hC).2 hex (fun v hv => generated_good hprims (by rw [← hD]; exact hv)) ht
      (compile_post hT (hs.ok.1.wf.reseed t) hb)
  · unfold Compiler.proposal
    rw [hD]
    exact proposal_meas hprims hcont _

/-- C88 for `compile_layered`. -/
theorem C88_compileLayered {c : Client} {Cs : List Compiler} (hs : Session 0 c Cs)
    (hex : ∀ x ∈ c.world.entries, x.toVal.Exact) {C : Compiler} (hC : C ∈ Cs) (hD : C.dimension = 2 ^ n)
    {counts : List (Primitive × ℤ)} (hprims : ∀ pc ∈ counts, pc.1.Valid n) (hcont : ∀ pc ∈ counts, 0 < pc.2 → pc.1.Continuous)
    {target : Unitary} (ht : target.Exact (2 ^ n)) (threshold : Option ℝ) (m : ℤ) :
    ResultEvents n fun t => C.compileLayered 0 target counts threshold m (c.world.reseed t) := by
  obtain ⟨b, hb, -, -⟩ := hs.ok.2.alive C hC
  refine events_of_walk (M := C.compileLayered 0 target counts threshold m) (prop := C.layeredProposal 0 counts) (b := b)
    (target := target) (threshold := threshold) (m := m) (fun t => ⟨C, rfl, ?_⟩) ?_
  · exact follows_of_post hD (hs.ok.2.dim C hC).2 hex
      (fun v hv => generatedLayer_good hprims (by rw [← hD]; exact hv)) ht (compileLayered_post (hs.ok.1.wf.reseed t) hb)
  · unfold Compiler.layeredProposal
    rw [hD]
    intro γ _ g hg
    exact Metropolis.propose_meas (layer_meas' hprims hcont) _ hg

/-- C88 for `generate_rav_sequence`. -/
theorem C88_rav {c : Client} {Cs : List Compiler} (hs : Session 0 c Cs) (hex : ∀ x ∈ c.world.entries, x.toVal.Exact)
    {prims : List Primitive} (hprims : ∀ q ∈ prims, q.Valid n) (hcont : ∀ q ∈ prims, q.Continuous) (hne : prims ≠ [])
    {arr : Bool} (harr : ¬ (arr = true ∧ prims.length > 1)) {L : ℤ} (hL : 0 ≤ L) {t : ℝ} (ht : 0 ≤ t ∧ t ≤ 1) (p : ℝ)
    (probs : Option (List ℝ)) (m : ℤ) :
    ResultEvents n fun t' => generateRavSequence 0 (2 ^ n) prims arr L (some t) p probs m (c.world.reseed t') := by
  refine events_of_plan (M := generateRavSequence 0 (2 ^ n) prims arr L (some t) p probs m)
    (random := Rav.blocks (Metropolis.one (createRandomEntryVal 0 (2 ^ n) prims probs)) L.toNat)
    (prop := (ravCompiler (2 ^ n) prims arr probs p 0).proposal 0) (skip := t = 0 ∨ m = 0) (rate := 0.1)
    (cap := ((2 : ℝ) ^ 2 ^ n) ^ 2) (threshold := some t) (m := m) (fun t' => ?_) ?_ (proposal_meas hprims hcont p)
  · rw [rav_eq, checked_ok _ (fun q hq => valid_dimension (hprims q hq)) hL ht]
    have hp := rav_post (2 ^ n) prims arr L.toNat t p probs m (hs.ok.1.wf.reseed t')
    rw [Wp] at hp
    exact plan_of_post rfl hex (fun v hv => generated_good hprims hv) (fun v hv => generated_good hprims hv)
      ⟨⟨by positivity, fun q hq => valid_dimension (hprims q hq)⟩, hne, harr⟩ hp
  · intro γ _
    exact Rav.blocks_meas (Metropolis.one_meas (createRandomEntryVal_meas probs hprims hcont)) _

/-- C88 for `generate_layered_rav_sequence`. -/
theorem C88_layeredRav {c : Client} {Cs : List Compiler} (hs : Session 0 c Cs)
    (hex : ∀ x ∈ c.world.entries, x.toVal.Exact) {counts : List (Primitive × ℤ)} (hprims : ∀ pc ∈ counts, pc.1.Valid n)
    (hcont : ∀ pc ∈ counts, 0 < pc.2 → pc.1.Continuous) {L : ℤ} (hL : 0 ≤ L) {t : ℝ} (ht : 0 ≤ t ∧ t ≤ 1) (p : ℝ) (m : ℤ) :
    ResultEvents n fun t' => generateLayeredRavSequence 0 (2 ^ n) counts L (some t) p m (c.world.reseed t') := by
  refine events_of_plan (M := generateLayeredRavSequence 0 (2 ^ n) counts L (some t) p m) (random := Rav.blocks
    (Metropolis.layer (fun q => createRandomEntryVal 0 (2 ^ n) [q] none) counts) L.toNat)
    (prop := (ravCompiler (2 ^ n) (counts.map (·.1)) false none p 0).layeredProposal 0 counts)
    (skip := t = 0 ∨ m = 0) (rate := 0.1) (cap := ((2 : ℝ) ^ 2 ^ n) ^ 2) (threshold := some t) (m := m) (fun t' => ?_) ?_ ?_
  · rw [layeredRav_eq, checked_ok _ (fun q hq => valid_dimension (hprims q hq)) hL ht]
    have hp := layeredRav_post (2 ^ n) counts L.toNat t p m (hs.ok.1.wf.reseed t')
    rw [Wp] at hp
    exact plan_of_post rfl hex (fun v hv => generatedLayer_good hprims hv) (fun v hv => generatedLayer_good hprims hv)
      ⟨by positivity, fun q hq => valid_dimension (hprims q hq)⟩ hp
  · intro γ _
    exact Rav.blocks_meas (layer_meas' hprims hcont) _
  · intro γ _ g hg
    exact Metropolis.propose_meas (layer_meas' hprims hcont) _ hg

/-! ## Hamiltonians -/

section
variable {Ms : List (Matrix (Fin (2 ^ n)) (Fin (2 ^ n)) ℂ)} {H : Hamiltonian}

theorem stoq_continuous (hH : H.Of Ms) {m : ℝ} {b : Bool} {prims : List Primitive}
    (hp : H.getUnitaryPrimitives 0 m b = .ok prims) : ∀ p ∈ prims, p.Continuous := by
  intro p h
  rw [primitives_eq hp] at h
  obtain ⟨s, hs, rfl⟩ := List.mem_map.mp h
  obtain ⟨h1, h2⟩ := hH.subset (hH.subset_lt hs).2
  exact evolutionFamily_continuous (by positivity) h1 h2 _ _ _

/-- C88 for `compile_stoq_sequence`. -/
theorem C88_stoq {c : Client} {Cs : List Compiler} (hs : Session 0 c Cs) (hex : ∀ x ∈ c.world.entries, x.toVal.Exact)
    (hn : 1 ≤ n) (hH : H.Of Ms) (t : ℝ) {m : ℝ} (hm : 0 ≤ m) (threshold : Option ℝ) (b : Bool) :
    ResultEvents n fun t' => H.compileStoqSequence 0 t m threshold b (c.world.reseed t') := by
  obtain ⟨prims, hp, hval, -⟩ := C50_primitives hn hH hm b
  obtain ⟨g1, g2⟩ := hH.total
  obtain ⟨target, h1, h2, -⟩ := C29_evolution (by positivity) g1 g2 t ""
  exact events_of_walk (rate := 0.1) (M := H.compileStoqSequence 0 t m threshold b)
    (fun t' => stoq_walks (hs.ok.1.wf.reseed t') hex hn hH hm threshold b hp h1 h2)
    (proposal_meas hval (stoq_continuous hH hp) 0.5)

theorem evolveGate_meas (hn : 1 ≤ n) (hH : H.Of Ms) {m : ℝ} (hm : 0 ≤ m) {b : Bool} {prims : List Primitive}
    (hp : H.getUnitaryPrimitives 0 m b = .ok prims) {γ : Type} [MeasurableSpace γ] {t : γ → ℝ} (ht : Measurable t)
    (hb : ∀ c, |t c| ≤ m) : Meas (gateKey n) fun c => Rav.evolveGate 0 prims H.applyTo (t c) := by
  unfold Rav.evolveGate
  refine (Meas.choice prims.length).bind fun i hi => ?_
  refine Meas.switch (m := fun i (c : γ × Tape) => match prims[i]? with
    | none => PyM.raise .indexError
    | some prim =>
      match prim.unitary with
      | .inl _ => PyM.raise .attributeError
      | .inr pu => do
        let u ← PyM.lift (pu.asUnitary 0 [t c.1])
        PyM.lift (EntryVal.new u H.applyTo)) hi fun i => ?_
  rcases hi : prims[i]? with _ | p
  · exact Meas.raise _
  · rw [primitives_eq hp, List.getElem?_map] at hi
    rcases hsi : (H.termSubsets b)[i]? with _ | s
    · rw [hsi] at hi; cases hi
    · rw [hsi] at hi
      cases hi
      choose u hu1 hu2 hu3 using fun c : γ × Tape => family_exact hn hH hm (List.mem_of_getElem? hsi) (abs_le.mp (hb c.1))
      refine (Meas.pure (κ := gateKey n) (g := fun c => ⟨u c, List.range n⟩) ?_).congr fun c => ?_
      · have e : (fun c => gateKey n ⟨u c, List.range n⟩) = fun c => dbl (evolution (subsetSum Ms s) (t c.1)) := by
          funext c
          obtain ⟨z, hz, hz2⟩ : SamePhase (EntryVal.op ⟨u c, List.range n⟩ n) (evolution (subsetSum Ms s) (t c.1)) := by
            rw [op_full (hu3 c).qubits]
            exact (hu3 c).phase
          unfold gateKey
          rw [hz2, dbl_smul hz]
        rw [e]
        have hE : Measurable fun x : ℝ => dbl (evolution (subsetSum Ms s) x) := by
          rw [measurable_dbl]
          intro i j k l
          have := evolution_continuous (subsetSum Ms s)
          exact (((this.matrix_elem i j)).mul (continuous_star.comp (this.matrix_elem k l))).measurable
        exact hE.comp (ht.comp measurable_fst)
      · simp only [Hamiltonian.subsetPrimitive]
        rw [hu1 c, hH.applyTo]
        change PyM.lift (EntryVal.new (u c) _) = _
        rw [hu2 c]
        rfl

/-- C88 for `compile_rav_sequence`. -/
theorem C88_hamiltonian_rav {c : Client} {Cs : List Compiler} (hs : Session 0 c Cs)
    (hex : ∀ x ∈ c.world.entries, x.toVal.Exact) (hn : 1 ≤ n) (hH : H.Of Ms) (time : ℝ) {m : ℝ} (hm : 0 ≤ m)
    (threshold : Option ℝ) (b : Bool) (fuel : ℕ) :
    ResultEvents n fun t' => H.compileRavSequence 0 time m threshold b fuel (c.world.reseed t') := by
  obtain ⟨prims, hp, hval, -⟩ := C50_primitives hn hH hm b
  refine events_of_plan (M := H.compileRavSequence 0 time m threshold b fuel)
    (hrav_follows hs hex hn hH time hm threshold hp fuel) ?_ (proposal_meas hval (stoq_continuous hH hp) 0.5)
  intro γ _
  exact Rav.evolutions_meas hm time (evolveGate_meas hn hH hm hp) fuel (total := fun _ : γ => 0) measurable_const

end

/-! ## Success and failure -/

theorem ResultEvents.overlap {M : Rng.Tape → Except PyErr CompilerResult × World} (h : ResultEvents n M)
    (V : Matrix (Fin (2 ^ n)) (Fin (2 ^ n)) ℂ) {S : Set ℝ} (hS : MeasurableSet S) :
    MeasurableSet {t | ∃ gates costs, ReturnsGates gates costs (M t) ∧ overlap V (circuit n gates) ∈ S} :=
  h V ((fun x => x.1.2) ⁻¹' S) ((measurable_snd.comp measurable_fst) hS)

/-- C88: the set of random numbers with which the call succeeds is an event. -/
theorem C88_succeeds {M : Rng.Tape → Except PyErr CompilerResult × World} (h : ResultEvents n M) (target : Unitary)
    (threshold : Option ℝ) : MeasurableSet {t | Succeeds n target threshold (M t)} :=
  h.overlap (target.matrix.toMatrix (2 ^ n)) (S := {x | Metropolis.GoodEnough threshold (1 - x)})
    (measurableSet_good threshold (measurable_const.sub measurable_id))

/-- C88: the set of random numbers with which a verification sequence comes back is an event. -/
theorem C88_comesBack {M : Rng.Tape → Except PyErr CompilerResult × World} (h : ResultEvents n M) (t : ℝ) :
    MeasurableSet {t' | ComesBack n t (M t')} :=
  h.overlap 1 (S := Set.Ici t) measurableSet_Ici

theorem C88_stoq_succeeds {M : Rng.Tape → Except PyErr CompilerResult × World} (h : ResultEvents n M)
    (Ms : List (Matrix (Fin (2 ^ n)) (Fin (2 ^ n)) ℂ)) (t : ℝ) (threshold : Option ℝ) :
    MeasurableSet {t' | StoqSucceeds Ms t threshold (M t')} :=
  h.overlap (evolution Ms.sum t) (S := {x | Metropolis.GoodEnough threshold (1 - x)})
    (measurableSet_good threshold (measurable_const.sub measurable_id))

theorem C88_rav_succeeds {M : Rng.Tape → Except PyErr CompilerResult × World} (h : ResultEvents n M)
    (threshold : Option ℝ) : MeasurableSet {t | RavSucceeds n threshold (M t)} :=
  h.overlap 1 (S := {x | Metropolis.GoodEnough threshold (1 - x)})
    (measurableSet_good threshold (measurable_const.sub measurable_id))

/-- The set of random numbers with which the call returns something is an event, and so is the set of those with which
it raises an exception. -/
theorem C88_returns {M : Rng.Tape → Except PyErr CompilerResult × World} (h : ResultEvents n M) :
    MeasurableSet {t | ∃ gates costs, ReturnsGates gates costs (M t)} := by
  simpa using h 1 Set.univ .univ

theorem fails_of_succeeds {B : ℕ} {S : Set Rng.Tape} (hS : MeasurableSet S) {x : ENNReal}
    (h : 1 - x ≤ Rng.tapes B S) : Rng.tapes B Sᶜ ≤ x := by
  rw [prob_compl_eq_one_sub hS]
  exact tsub_le_iff_right.mpr (by
    have := tsub_le_iff_right.mp h
    rwa [add_comm])

/-- C88: the probability that `compile` does not find a good enough sequence within `m` steps is at most
`(1 - δ) ^ ⌊m / K⌋`, under the conditions of C77. -/
theorem C88_compile_fails {prims : List Primitive} {probs : Option (List ℝ)} {p : ℝ}
    (hprims : ∀ q ∈ prims, q.Valid n) (hcont : ∀ q ∈ prims, q.Continuous) (hch : ChoiceOk prims probs)
    (hp : 0 < p ∧ p ≤ 1) {target : Unitary} (ht : target.Exact (2 ^ n)) {threshold : Option ℝ} {w : List EntryVal}
    (hw : ∀ v ∈ w, CanDraw n prims probs v)
    (hgood : 1 - overlap (target.matrix.toMatrix (2 ^ n)) (circuit n w) < Metropolis.allowed threshold) {B : ℕ}
    (hB : n ≤ B) (hB1 : prims.length ≤ B)
    (hB2 : ∀ q ∈ prims, ∀ lists, q.allowedApplyTo = some lists → lists.length ≤ B) :
    ∃ (δ : ℝ) (K : ℕ), 0 < δ ∧ δ ≤ 1 ∧ 0 < K ∧ ∀ {c : Client} {Cs : List Compiler}, Session 0 c Cs →
      (∀ x ∈ c.world.entries, x.toVal.Exact) → ∀ {C : Compiler}, C ∈ Cs → C.dimension = 2 ^ n → C.primitives = prims →
      C.probabilities = probs → C.appendProbability = p → 0 ≤ C.annealingRate → C.Truthy → ∀ m : ℕ,
        Rng.tapes B {t | ¬ Succeeds n target threshold (C.compile 0 target threshold m (c.world.reseed t))} ≤
          ENNReal.ofReal ((1 - δ) ^ (m / K)) := by
  obtain ⟨δ, K, h1, h2, h3, h4⟩ := C77_compile_succeeds hprims hcont hch hp ht hw hgood hB hB1 hB2
  refine ⟨δ, K, h1, h2, h3, ?_⟩
  intro c Cs hs hex C hC hD hCp hCr hCa hrate hTr m
  exact fails_of_succeeds (C88_succeeds (C88_compile hs hex hC hD (by rwa [hCp]) (by rwa [hCp]) hTr ht threshold m) _ _)
    (h4 hs hex hC hD hCp hCr hCa hrate hTr m)

/-- C88: with probability one there is a number of steps with which `compile` finds a good enough sequence. -/
theorem C88_compile_almost_surely {prims : List Primitive} {probs : Option (List ℝ)} {p : ℝ}
    (hprims : ∀ q ∈ prims, q.Valid n) (hcont : ∀ q ∈ prims, q.Continuous) (hch : ChoiceOk prims probs)
    (hp : 0 < p ∧ p ≤ 1) {target : Unitary} (ht : target.Exact (2 ^ n)) {threshold : Option ℝ} {w : List EntryVal}
    (hw : ∀ v ∈ w, CanDraw n prims probs v)
    (hgood : 1 - overlap (target.matrix.toMatrix (2 ^ n)) (circuit n w) < Metropolis.allowed threshold) {B : ℕ}
    (hB : n ≤ B) (hB1 : prims.length ≤ B)
    (hB2 : ∀ q ∈ prims, ∀ lists, q.allowedApplyTo = some lists → lists.length ≤ B) {c : Client} {Cs : List Compiler}
    (hs : Session 0 c Cs) (hex : ∀ x ∈ c.world.entries, x.toVal.Exact) {C : Compiler} (hC : C ∈ Cs)
    (hD : C.dimension = 2 ^ n) (hCp : C.primitives = prims) (hCr : C.probabilities = probs)
    (hCa : C.appendProbability = p) (hrate : 0 ≤ C.annealingRate) (hTr : C.Truthy) :
    ∀ᵐ t ∂Rng.tapes B, ∃ m : ℕ, Succeeds n target threshold (C.compile 0 target threshold m (c.world.reseed t)) := by
  obtain ⟨δ, K, h1, h2, h3, h4⟩ := C88_compile_fails hprims hcont hch hp ht hw hgood hB hB1 hB2
  rw [ae_iff]
  refine le_antisymm (ENNReal.le_of_forall_pos_le_add fun ε hε _ => ?_) zero_le
  rw [zero_add]
  obtain ⟨q, hq⟩ := exists_pow_lt_of_lt_one (show (0 : ℝ) < ε by exact_mod_cast hε) (show 1 - δ < 1 by linarith)
  have := h4 hs hex hC hD hCp hCr hCa hrate hTr (q * K)
  rw [Nat.mul_div_cancel _ h3] at this
  refine (measure_mono fun t ht => ?_).trans (this.trans ?_)
  · simp only [Set.mem_ofPred_eq, not_exists] at ht ⊢
    exact ht _
  · rw [← ENNReal.ofReal_coe_nnreal]
    exact ENNReal.ofReal_le_ofReal hq.le

/-- C88: the probability that `compile_layered` does not find a good enough sequence within `m` steps. -/
theorem C88_compileLayered_fails {counts : List (Primitive × ℤ)} {p : ℝ}
    (hprims : ∀ pc ∈ counts, pc.1.Valid n) (hcounts : ∀ pc ∈ counts, 0 ≤ pc.2)
    (hcont : ∀ pc ∈ counts, 0 < pc.2 → pc.1.allowedApplyTo ≠ some [] ∧ pc.1.Continuous) (hp : 0 < p ∧ p ≤ 1)
    {target : Unitary} (ht : target.Exact (2 ^ n)) {threshold : Option ℝ} {layers : List (List EntryVal)}
    (hw : ∀ l ∈ layers, CanDrawLayer n counts l)
    (hgood : 1 - overlap (target.matrix.toMatrix (2 ^ n)) (circuit n layers.flatten) < Metropolis.allowed threshold)
    {B : ℕ} (hB : n ≤ B) (hB1 : 1 ≤ B)
    (hB2 : ∀ pc ∈ counts, ∀ lists, pc.1.allowedApplyTo = some lists → lists.length ≤ B)
    (hB3 : (counts.map fun pc => pc.2.toNat).sum ≤ B) :
    ∃ (δ : ℝ) (K : ℕ), 0 < δ ∧ δ ≤ 1 ∧ 0 < K ∧ ∀ {c : Client} {Cs : List Compiler}, Session 0 c Cs →
      (∀ x ∈ c.world.entries, x.toVal.Exact) → ∀ {C : Compiler}, C ∈ Cs → C.dimension = 2 ^ n →
      C.appendProbability = p → 0 ≤ C.annealingRate → ∀ m : ℕ,
        Rng.tapes B {t | ¬ Succeeds n target threshold
          (C.compileLayered 0 target counts threshold m (c.world.reseed t))} ≤ ENNReal.ofReal ((1 - δ) ^ (m / K)) := by
  obtain ⟨δ, K, h1, h2, h3, h4⟩ := C77_compileLayered_succeeds hprims hcounts hcont hp ht hw hgood hB hB1 hB2 hB3
  refine ⟨δ, K, h1, h2, h3, ?_⟩
  intro c Cs hs hex C hC hD hCa hrate m
  exact fails_of_succeeds (C88_succeeds (C88_compileLayered hs hex hC hD hprims (fun pc hpc h0 => (hcont pc hpc h0).2) ht
    threshold m) _ _) (h4 hs hex hC hD hCa hrate m)

/-- C88: the probability that `generate_rav_sequence` does not come back within `m` steps, under the conditions of C78. -/
theorem C88_rav_fails {prims : List Primitive} {probs : Option (List ℝ)} {p : ℝ}
    (hprims : ∀ q ∈ prims, q.Valid n) (hcont : ∀ q ∈ prims, q.Continuous) (hne : prims ≠ []) (hch : ChoiceOk prims probs)
    (hp : 0 < p ∧ p ≤ 1) {t : ℝ} (ht : 0 ≤ t ∧ t < 1) {B : ℕ} (hB : n ≤ B) (hB1 : prims.length ≤ B)
    (hB2 : ∀ q ∈ prims, ∀ lists, q.allowedApplyTo = some lists → lists.length ≤ B) :
    ∃ (δ : ℝ) (K : ℕ), 0 < δ ∧ δ ≤ 1 ∧ 0 < K ∧ ∀ {c : Client} {Cs : List Compiler}, Session 0 c Cs →
      (∀ x ∈ c.world.entries, x.toVal.Exact) → ∀ {arr : Bool}, ¬ (arr = true ∧ prims.length > 1) →
      ∀ {L : ℤ}, 0 ≤ L → ∀ m : ℕ,
        Rng.tapes B {t' | ¬ ComesBack n t
          (generateRavSequence 0 (2 ^ n) prims arr L (some t) p probs m (c.world.reseed t'))} ≤
            ENNReal.ofReal ((1 - δ) ^ (m / K)) := by
  obtain ⟨δ, K, h1, h2, h3, h4⟩ := C78_rav_succeeds hprims hcont hch hp ht hB hB1 hB2
  refine ⟨δ, K, h1, h2, h3, ?_⟩
  intro c Cs hs hex arr harr L hL m
  exact fails_of_succeeds (C88_comesBack (C88_rav hs hex hprims hcont hne harr hL ⟨ht.1, ht.2.le⟩ p probs m) _)
    (h4 hs hex harr hL m)

/-- C88: the probability that `generate_layered_rav_sequence` does not come back within `m` steps. -/
theorem C88_layeredRav_fails {counts : List (Primitive × ℤ)} {p : ℝ}
    (hprims : ∀ pc ∈ counts, pc.1.Valid n) (hcounts : ∀ pc ∈ counts, 0 ≤ pc.2)
    (hcont : ∀ pc ∈ counts, 0 < pc.2 → pc.1.allowedApplyTo ≠ some [] ∧ pc.1.Continuous) (hp : 0 < p ∧ p ≤ 1)
    {t : ℝ} (ht : 0 ≤ t ∧ t < 1) {B : ℕ} (hB : n ≤ B) (hB1 : 1 ≤ B)
    (hB2 : ∀ pc ∈ counts, ∀ lists, pc.1.allowedApplyTo = some lists → lists.length ≤ B)
    (hB3 : (counts.map fun pc => pc.2.toNat).sum ≤ B) :
    ∃ (δ : ℝ) (K : ℕ), 0 < δ ∧ δ ≤ 1 ∧ 0 < K ∧ ∀ {c : Client} {Cs : List Compiler}, Session 0 c Cs →
      (∀ x ∈ c.world.entries, x.toVal.Exact) → ∀ {L : ℤ}, 0 ≤ L → ∀ m : ℕ,
        Rng.tapes B {t' | ¬ ComesBack n t
          (generateLayeredRavSequence 0 (2 ^ n) counts L (some t) p m (c.world.reseed t'))} ≤
            ENNReal.ofReal ((1 - δ) ^ (m / K)) := by
  obtain ⟨δ, K, h1, h2, h3, h4⟩ := C78_layeredRav_succeeds hprims hcounts hcont hp ht hB hB1 hB2 hB3
  refine ⟨δ, K, h1, h2, h3, ?_⟩
  intro c Cs hs hex L hL m
  exact fails_of_succeeds (C88_comesBack (C88_layeredRav hs hex hprims (fun pc hpc h0 => (hcont pc hpc h0).2) hL
    ⟨ht.1, ht.2.le⟩ p m) _) (h4 hs hex hL m)

/-! ## Example -/

/-- C88: on three qubits, random circuits of 100 gates of the examples are not undone up to an overlap of 0.999 with a
probability of at most 1 %, if enough steps are allowed; and this is the probability of an event. -/
example (rng : Rng) : ∃ (xy ms : ParamUnitary) (m0 : ℕ), ParamDefinitions.rotationXY 0 = .ok xy ∧
    ParamDefinitions.xx 0 = .ok ms ∧ ∀ m : ℕ, m0 ≤ m →
      MeasurableSet {t | ComesBack 3 (999 / 1000) (generateRavSequence 0 (2 ^ 3) [⟨.inr xy, none⟩, ⟨.inr ms, none⟩] false 100
        (some (999 / 1000)) (1 / 2) none m ((Client.start rng).world.reseed t))} ∧
      Rng.tapes 3 {t | ¬ ComesBack 3 (999 / 1000) (generateRavSequence 0 (2 ^ 3) [⟨.inr xy, none⟩, ⟨.inr ms, none⟩] false 100
        (some (999 / 1000)) (1 / 2) none m ((Client.start rng).world.reseed t))} ≤ ENNReal.ofReal (1 / 100) := by
  obtain ⟨⟨xy, hxy, -⟩, -, ⟨ms, hms, -⟩⟩ := C27_parameterized
  obtain ⟨δ, K, g1, g2, g3, g4⟩ := C88_rav_fails (n := 3) (native_valid (by norm_num) hxy hms) (native_continuous hxy hms)
    (by simp) (probs := none) (by simp [ChoiceOk, usable]) (p := 1 / 2) (by norm_num) (t := 999 / 1000) (by norm_num)
    (B := 3) le_rfl (by simp) (by
      intro q hq lists hl
      simp only [List.mem_cons, List.not_mem_nil, or_false] at hq
      rcases hq with rfl | rfl <;> cases hl)
  obtain ⟨q, hq⟩ := exists_pow_lt_of_lt_one (show (0 : ℝ) < 1 / 100 by norm_num) (show 1 - δ < 1 by linarith)
  refine ⟨xy, ms, q * K, hxy, hms, fun m hm => ⟨?_, ?_⟩⟩
  · exact C88_comesBack (C88_rav (.start rng) (by simp [Client.start]) (native_valid (by norm_num) hxy hms)
      (native_continuous hxy hms) (by simp) (by simp) (by norm_num) (by norm_num) _ _ _) _
  · refine (g4 (.start rng) (by simp [Client.start]) (arr := false) (by simp) (L := 100) (by norm_num) m).trans
      (ENNReal.ofReal_le_ofReal ?_)
    exact le_trans (pow_le_pow_of_le_one (by linarith) (by linarith) ((Nat.le_div_iff_mul_le g3).mpr hm)) hq.le

/-- C88 for a Hamiltonian: the successes of both compilations of evolutions under X + Z are events. -/
example (rng : Rng) : ∃ H, Hamiltonian.Of (n := 1) [!![0, 1; 1, 0], !![1, 0; 0, -1]] H ∧
    MeasurableSet {t' | RavSucceeds 1 (some (9999 / 10000))
      (H.compileRavSequence 0 1 (1 / 10) (some (9999 / 10000)) false 10000 ((Client.start rng).world.reseed t'))} ∧
    MeasurableSet {t' | StoqSucceeds (n := 1) [!![0, 1; 1, 0], !![1, 0; 0, -1]] 1 (some (9999 / 10000))
      (H.compileStoqSequence 0 1 (1 / 10) (some (9999 / 10000)) true ((Client.start rng).world.reseed t'))} := by
  obtain ⟨H, hH⟩ := example_xz
  exact ⟨H, hH, C88_rav_succeeds (C88_hamiltonian_rav (.start rng) (by simp [Client.start]) le_rfl hH 1 (by norm_num) _ _ _) _,
    C88_stoq_succeeds (C88_stoq (.start rng) (by simp [Client.start]) le_rfl hH 1 (by norm_num) _ _) _ _ _⟩

end Stoq
