import Verif.Spec.Task
import Verif.Proofs.ApartAlgos
import Verif.Props.HamiltonianRav
import Verif.Props.HamiltonianSequences

/-!
# Outcomes of the calls that return a sequence
-/

namespace Stoq

open World Compiler

theorem call_map {α : Type} (c : Client) (M : PyM World α) (f : α → ℕ) :
    c.call (do let a ← M; return f a) (fun _ _ => .handle) (fun _ => []) (fun s => [s]) =
      c.call M (fun _ _ => .handle) (fun _ => []) (fun a => [f a]) := by
  rcases hM : M c.world with ⟨e | a, w⟩
  · have : (do let a ← M; return f a : PyM World ℕ) c.world = (.error e, w) := PyM.bind_of_error hM
    rw [Client.call_eq.2 e w hM, Client.call_eq.2 e w this]
  · have : (do let a ← M; return f a : PyM World ℕ) c.world = (.ok (f a), w) := by rw [PyM.bind_of_ok hM]; rfl
    rw [Client.call_eq.1 a w hM, Client.call_eq.1 (f a) w this]

/-- The calls are those of a session. -/
theorem Session.task {τ : Arith} {c : Client} {Cs : List Compiler} (h : Session τ c Cs) {T : Task} (hT : T.Uses Cs) :
    Session τ (c.task τ T).2 Cs := by
  unfold Client.task
  cases T with
  | compile C target threshold m => simp only [Task.run, call_map]; exact .compile _ _ _ h hT
  | compileLayered C target counts threshold m => simp only [Task.run, call_map]; exact .compileLayered _ _ _ _ h hT
  | rav D prims arr L threshold p probs m => simp only [Task.run, call_map]; exact .rav _ _ _ _ _ _ _ _ h
  | layeredRav D counts L threshold p m => simp only [Task.run, call_map]; exact .layeredRav _ _ _ _ _ _ h
  | ideal H t N => exact .ideal _ _ _ h
  | trotter H t N randomize => exact .trotter _ _ _ _ h
  | qdrift H t N => exact .qdrift _ _ _ h
  | stoq H t m threshold b => simp only [Task.run, call_map]; exact .stoq _ _ _ _ _ h
  | hamiltonianRav H t m threshold b fuel => simp only [Task.run, call_map]; exact .hamiltonianRav _ _ _ _ _ _ h

theorem Gives.map {base : ℕ} {P : EntryVal → Prop} {α : Type} {f : α → ℕ} {M : PyM World α} (h : Gives base P f M) :
    Gives base P id (do let a ← M; return f a) := h.bind fun _ ha => .pure ha

/-- No returned sequence has an entry object twice, for all arguments. -/
theorem Task.gives {base : ℕ} (τ : Arith) (T : Task) : Gives base (fun _ => True) id (T.run τ) := by
  cases T with
  | compile C target threshold m => exact (compile_gives (fun _ _ => trivial) _ _ _).map
  | compileLayered C target counts threshold m => exact (compileLayered_gives (fun _ _ => trivial) _ _ _).map
  | rav D prims arr L threshold p probs m => exact (rav_gives (fun _ _ => trivial) _ _ _ _ _).map
  | layeredRav D counts L threshold p m => exact (layeredRav_gives (fun _ _ => trivial) _ _ _ _).map
  | ideal H t N => exact ideal_gives fun _ _ => trivial
  | trotter H t N randomize => exact trotter_gives (fun _ _ => trivial) _
  | qdrift H t N => exact qdrift_gives fun _ _ => trivial
  | stoq H t m threshold b => exact (stoq_gives (fun _ _ _ _ => trivial) _ _).map
  | hamiltonianRav H t m threshold b fuel => exact (hrav_gives (fun _ _ _ _ => trivial) _ _ _).map

theorem primitives_good {n : ℕ} {Ms : List (Matrix (Fin (2 ^ n)) (Fin (2 ^ n)) ℂ)} {H : Hamiltonian} (hn : 1 ≤ n)
    (hH : H.Of Ms) {m : ℝ} (hm : 0 ≤ m) {b : Bool} {ps : List Primitive} (hps : H.getUnitaryPrimitives 0 m b = .ok ps) :
    (∀ p ∈ ps, p.Valid n) ∧ CompilerUsable H.dimension ps false := by
  obtain ⟨prims, hp, hval, -⟩ := C50_primitives hn hH hm b
  rw [hps] at hp
  cases hp
  have hD := hH.terms.1
  refine ⟨hval, ⟨by rw [hD]; positivity, fun q hq => by rw [hD]; exact valid_dimension (hval q hq)⟩, ?_, by simp⟩
  rw [primitives_eq hps]
  intro h
  have := hH.subsets_pos b
  rw [List.map_eq_nil_iff.mp h] at this
  exact lt_irrefl _ this

theorem stoqGates_good {n : ℕ} {Ms : List (Matrix (Fin (2 ^ n)) (Fin (2 ^ n)) ℂ)} {H : Hamiltonian} (hn : 1 ≤ n)
    (hH : H.Of Ms) {m : ℝ} (hm : 0 ≤ m) {b : Bool} {ps : List Primitive} (hps : H.getUnitaryPrimitives 0 m b = .ok ps) :
    (∀ v, Generated 0 H.dimension ps none v → v.Fits n ∧ v.Exact) ∧
    ∀ v, (∃ t, RavGate 0 ps H.applyTo t v) → v.Fits n ∧ v.Exact := by
  refine ⟨fun v hv => generated_good (primitives_good hn hH hm hps).1 (by rw [← hH.terms.1]; exact hv), fun v hv => ?_⟩
  obtain ⟨t, hv⟩ := hv
  obtain ⟨s, -, -, -, hv⟩ := (ravGate_stoqGate hps hv).evolves hn hH
  exact hv.good

/-- On qubits all entries stay exact, also when the call fails. -/
theorem Task.gives_exact {base : ℕ} {T : Task} (hT : T.OnQubits) : Gives base EntryVal.Exact id (T.run 0) := by
  cases T with
  | compile C target threshold m =>
    obtain ⟨n, h1, h2, -⟩ := hT
    exact (compile_gives (fun v hv => (generated_good h2 (by rw [← h1]; exact hv)).2) _ _ _).map
  | compileLayered C target counts threshold m =>
    obtain ⟨n, h1, h2, -⟩ := hT
    exact (compileLayered_gives (fun v hv => (generatedLayer_good h2 (by rw [← h1]; exact hv)).2) _ _ _).map
  | rav D prims arr L threshold p probs m =>
    obtain ⟨n, rfl, h2, -⟩ := hT
    exact (rav_gives (fun v hv => (generated_good h2 hv).2) _ _ _ _ _).map
  | layeredRav D counts L threshold p m =>
    obtain ⟨n, rfl, h2⟩ := hT
    exact (layeredRav_gives (fun v hv => (generatedLayer_good h2 hv).2) _ _ _ _).map
  | ideal H t N =>
    obtain ⟨n, Ms, hn, hH⟩ := hT
    exact ideal_gives fun v hv => evolveEntry_good hn hH (fun h t s hP => ⟨_, hP.1 ▸ hH.total.1, hH.total.2⟩) hv
  | trotter H t N randomize =>
    obtain ⟨n, Ms, hn, hH⟩ := hT
    exact trotter_gives (fun v hv => evolveEntry_good hn hH (fun _ _ _ => hH.trotterP) hv) _
  | qdrift H t N =>
    obtain ⟨n, Ms, hn, hH⟩ := hT
    exact qdrift_gives fun v hv => evolveEntry_good hn hH (fun h t s hP => by
      obtain ⟨-, i, term, h1, rfl, -⟩ := hP
      obtain ⟨M, -, h2⟩ := hH.get h1
      exact ⟨_, h2.normalised⟩) hv
  | stoq H t m threshold b =>
    obtain ⟨hm, n, Ms, hn, hH⟩ := hT
    exact (stoq_gives (fun ps hps v hv => ((stoqGates_good hn hH hm hps).1 v hv).2) _ _).map
  | hamiltonianRav H t m threshold b fuel =>
    obtain ⟨hm, n, Ms, hn, hH⟩ := hT
    refine (hrav_gives (fun ps hps v hv => ?_) _ _ _).map
    rcases hv with hv | hv
    · exact ((stoqGates_good hn hH hm hps).1 v hv).2
    · exact ((stoqGates_good hn hH hm hps).2 v hv).2

/-! ## Old entries -/

theorem runMap_world {α : Type} (M : PyM World α) (f : α → ℕ) (w : World) :
    ((do let a ← M; return f a : PyM World ℕ) w).2 = (M w).2 := by
  rcases hM : M w with ⟨e | a, w'⟩
  · rw [PyM.bind_of_error hM]
  · rw [PyM.bind_of_ok hM]; rfl

theorem runMap_ok {α : Type} {M : PyM World α} {f : α → ℕ} {w : World} {s : ℕ} {w' : World}
    (h : (do let a ← M; return f a : PyM World ℕ) w = (.ok s, w')) : ∃ a, M w = (.ok a, w') ∧ f a = s := by
  obtain ⟨a, w1, h1, h2⟩ := PyM.bind_eq_ok_iff.mp h
  cases h2
  exact ⟨a, h1, rfl⟩

/-- The entries that existed keep their values. -/
theorem Task.grow {τ : Arith} {c : Client} {Cs : List Compiler} (h : Session τ c Cs) {T : Task} (hT : T.Uses Cs) :
    Grow c.world.entries (T.run τ c.world).2.entries := by
  have hw := h.ok.1.wf
  cases T with
  | compile C target threshold m =>
    simp only [Task.run, runMap_world]
    obtain ⟨b, hb, -⟩ := h.ok.2.alive C hT
    by_cases hT : C.Truthy
    · exact (compile_post hT hw hb).grow
    · rcases compile_falsy (τ := τ) (target := target) (threshold := threshold) (m := m) hT c.world with h | h <;>
      · rw [h]; exact .refl _
  | compileLayered C target counts threshold m =>
    simp only [Task.run, runMap_world]
    obtain ⟨b, hb, -⟩ := h.ok.2.alive C hT
    exact (compileLayered_post hw hb).grow
  | rav D prims arr L threshold p probs m => simp only [Task.run, runMap_world]; exact (rav_safe hw).1.grow
  | layeredRav D counts L threshold p m => simp only [Task.run, runMap_world]; exact (layeredRav_safe hw).1.grow
  | ideal H t N => exact (ideal_post H t N hw).1.grow
  | trotter H t N randomize => exact (trotter_post H t N randomize hw).1.grow
  | qdrift H t N => exact (qdrift_post H t N hw).safe.grow
  | stoq H t m threshold b => simp only [Task.run, runMap_world]; exact (stoq_safe hw).1.grow
  | hamiltonianRav H t m threshold b fuel => simp only [Task.run, runMap_world]; exact (hrav_safe hw).1.grow

/-! ## The stored product -/

/-- Dimension and stored product of the returned sequence. -/
def GoodSeq (w : World) (s : ℕ) : Prop :=
  ∃ n o, w.seqs[s]? = some o ∧ o.dimension = 2 ^ n ∧ ProdOk w.entries n o ∧ o.isArray = false

theorem CompilePost.good {G : EntryVal → Prop} {prop : List EntryVal → PyM Rng (List EntryVal)}
    {C : Compiler} {target : Unitary} {threshold : Option ℝ} {m : ℤ} {w w' : World} {b : ℝ} {R : CompilerResult} {n : ℕ}
    (h : CompilePost 0 G prop C target threshold m w b (.ok R) w') (hD : C.dimension = 2 ^ n) (hex : ExactEs w.entries)
    (hG : ∀ v, G v → v.Fits n ∧ v.Exact) (ht : target.Exact (2 ^ n)) : GoodSeq w' R.sequence := by
  have h1 := h.exact n rfl hD hex hG ht
  rcases hr : Metropolis.run n (target.matrix.toMatrix (2 ^ n)) threshold C.annealingRate C.maxBeta prop
        m.toNat ⟨[], b⟩ w.rng with ⟨e | tr, r⟩
  · rw [hr] at h1; cases h1.1
  · rw [hr] at h1
    obtain ⟨g1, -, -, o', g2, -, g3⟩ := h1
    cases g1
    obtain ⟨-, -, -, o, -, k1, -, k2, -⟩ := h.ok _ rfl
    rw [show w'.seqs[w.seqs.length]? = some o' from g2] at k1
    cases k1
    exact ⟨n, o', g2, g3.dim, g3.prod, k2⟩

theorem RavPost.good {G G' : EntryVal → Prop} {random : PyM Rng (List EntryVal)}
    {prop : List EntryVal → PyM Rng (List EntryVal)} {rate cap : ℝ} {D : ℕ} {threshold : Option ℝ} {skip : Prop} {m : ℤ}
    {T : Prop} {w w' : World} {R : CompilerResult} {n : ℕ}
    (h : RavPost 0 G G' random prop rate cap D threshold skip m T w (.ok R) w') (hD : D = 2 ^ n) (hex : ExactEs w.entries)
    (hG : ∀ v, G v → v.Fits n ∧ v.Exact) (hG' : ∀ v, G' v → v.Fits n ∧ v.Exact) (hT : T) : GoodSeq w' R.sequence := by
  have h1 := h.exact n rfl hD hex hG hG' hT
  rcases hr : Rav.plan n random prop rate cap threshold skip m w.rng with ⟨e | ⟨pre, tr⟩, r⟩
  · rw [hr] at h1; cases h1.1
  · rw [hr] at h1
    obtain ⟨-, R', o', g1, -, g2, -, g3⟩ := h1
    cases g1
    obtain ⟨-, -, o, -, -, k1, -, k2, -⟩ := h.ok _ rfl
    rw [g2] at k1
    cases k1
    exact ⟨n, o', g2, g3.dim, g3.prod, k2⟩

theorem BuildPost.good {G : EntryVal → Prop} {fresh : PyM Rng (List EntryVal)} {D n : ℕ} {w w' : World} {s : ℕ}
    (h : BuildPost 0 G fresh D w (.ok s) w') (hD : D = 2 ^ n) : GoodSeq w' s := by
  obtain ⟨-, vs, rs, -, -, h1, -⟩ := h.ok s rfl
  exact ⟨n, _, h1, hD, ⟨fun p hp => (by cases hp), fun p hp => (by cases hp), fun _ => rfl⟩, rfl⟩

theorem Task.good {c : Client} {Cs : List Compiler} (h : Session 0 c Cs) (hex : ExactEs c.world.entries) {T : Task}
    (hT : T.Uses Cs) (hQ : T.OnQubits) {s : ℕ} {w' : World} (hr : T.run 0 c.world = (.ok s, w')) : GoodSeq w' s := by
  have hw := h.ok.1.wf
  cases T with
  | compile C target threshold m =>
    obtain ⟨R, hR, rfl⟩ := runMap_ok hr
    replace hr := hR
    obtain ⟨n, h1, h2, h3⟩ := hQ
    obtain ⟨b, hb, -⟩ := h.ok.2.alive C hT
    by_cases hT : C.Truthy
    · have hp := compile_post (target := target) (threshold := threshold) (m := m) hT hw hb
      rw [hr] at hp
      exact hp.good h1 hex (fun v hv => generated_good h2 (by rw [← h1]; exact hv)) h3
    · rcases compile_falsy (τ := 0) (target := target) (threshold := threshold) (m := m) hT c.world with h | h <;>
      · rw [hr] at h; cases h
  | compileLayered C target counts threshold m =>
    obtain ⟨R, hR, rfl⟩ := runMap_ok hr
    replace hr := hR
    obtain ⟨n, h1, h2, h3⟩ := hQ
    obtain ⟨b, hb, -⟩ := h.ok.2.alive C hT
    have hp := compileLayered_post (target := target) (counts := counts) (threshold := threshold) (m := m) hw hb
    rw [hr] at hp
    exact hp.good h1 hex (fun v hv => generatedLayer_good h2 (by rw [← h1]; exact hv)) h3
  | rav D prims arr L threshold p probs m =>
    obtain ⟨R, hR, rfl⟩ := runMap_ok hr
    replace hr := hR
    obtain ⟨n, rfl, h2, h3, rfl⟩ := hQ
    rw [rav_eq] at hr
    rcases checked_cases (∀ q ∈ prims, q.getDimension ≤ 2 ^ n) (L ≥ 0) threshold (fun t =>
      ravWith 0 (2 ^ n) (fun s => appendBlocks 0 (do let e ← createRandomSequenceEntry 0 (2 ^ n) prims probs; return [e])
          s L.toNat) (t = 0 ∨ m = 0) (newCompile 0 (2 ^ n) prims false probs p (some t) m)) c.world with
      ⟨e, h⟩ | ⟨t, -, -, -, -, -, h⟩
    · rw [hr] at h; cases h
    · rw [hr] at h
      have hp := rav_post (2 ^ n) prims false L.toNat t p probs m hw
      rw [Wp, ← h] at hp
      exact hp.good rfl hex (fun v hv => generated_good h2 hv) (fun v hv => generated_good h2 hv)
        ⟨⟨by positivity, fun q hq => valid_dimension (h2 q hq)⟩, h3, by simp⟩
  | layeredRav D counts L threshold p m =>
    obtain ⟨R, hR, rfl⟩ := runMap_ok hr
    replace hr := hR
    obtain ⟨n, rfl, h2⟩ := hQ
    rw [layeredRav_eq] at hr
    rcases checked_cases (∀ pc ∈ counts, pc.1.getDimension ≤ 2 ^ n) (L ≥ 0) threshold (fun t =>
      ravWith 0 (2 ^ n) (fun s => appendBlocks 0 (createRandomLayer 0 (2 ^ n) counts) s L.toNat) (t = 0 ∨ m = 0)
        (newCompileLayered 0 (2 ^ n) counts p (some t) m)) c.world with ⟨e, h⟩ | ⟨t, -, -, -, -, -, h⟩
    · rw [hr] at h; cases h
    · rw [hr] at h
      have hp := layeredRav_post (2 ^ n) counts L.toNat t p m hw
      rw [Wp, ← h] at hp
      exact hp.good rfl hex (fun v hv => generatedLayer_good h2 hv) (fun v hv => generatedLayer_good h2 hv)
        ⟨by positivity, fun q hq => valid_dimension (h2 q hq)⟩
  | ideal H t N =>
    obtain ⟨n, Ms, hn, hH⟩ := hQ
    have hr : H.getIdealSequence 0 t N c.world = _ := hr
    have hp := ideal_post H t N hw
    rw [Wp, hr] at hp
    obtain ⟨-, h2, h3⟩ := hp
    by_cases hN : N = 0
    · cases (h2 hN).1
    · rcases hu : H.getTimeEvolutionOperator 0 (t / N) with e | u
      · cases ((h3 hN).1 e hu).1
      · exact ((h3 hN).2 u hu).good hH.terms.1
  | trotter H t N randomize =>
    obtain ⟨n, Ms, hn, hH⟩ := hQ
    have hr : H.getTrotterSequence 0 t N randomize c.world = _ := hr
    have hp := trotter_post H t N randomize hw
    rw [Wp, hr] at hp
    obtain ⟨-, h2, h3⟩ := hp
    by_cases hN : N = 0
    · cases (h2 hN).1
    · exact (h3 hN).good hH.terms.1
  | qdrift H t N =>
    obtain ⟨n, Ms, hn, hH⟩ := hQ
    have hr : H.getQdriftSequence 0 t N c.world = _ := hr
    have hp := qdrift_post H t N hw
    rw [Wp, hr] at hp
    exact hp.good hH.terms.1
  | stoq H t m threshold b =>
    obtain ⟨R, hR, rfl⟩ := runMap_ok hr
    replace hr := hR
    obtain ⟨hm, n, Ms, hn, hH⟩ := hQ
    obtain ⟨target, prims, C, h1, h2, h3, h4, hp⟩ := stoq_split h hr
    obtain ⟨g1, g2⟩ := hH.total
    obtain ⟨target', k1, k2, -⟩ := C29_evolution (by positivity) g1 g2 t ""
    have : target = target' := by
      have : H.getTimeEvolutionOperator 0 t = .ok target' := k1
      rw [h1] at this
      cases this; rfl
    subst this
    exact hp.good (h3.trans hH.terms.1) hex (stoqGates_good hn hH hm h2).1 k2
  | hamiltonianRav H t m threshold b fuel =>
    obtain ⟨R, hR, rfl⟩ := runMap_ok hr
    replace hr := hR
    obtain ⟨hm, n, Ms, hn, hH⟩ := hQ
    rcases hp : H.getUnitaryPrimitives 0 m b with e | prims
    · rw [hrav_error hp] at hr; cases hr
    · rw [hrav_eq hp] at hr
      have hpost := hrav_post H prims m t threshold fuel hw
      rw [Wp, hr] at hpost
      exact hpost.good hH.terms.1 hex (stoqGates_good hn hH hm hp).2 (stoqGates_good hn hH hm hp).1
        (primitives_good hn hH hm hp).2

/-! ## The specification follows the program -/

theorem Client.task_eq {τ : Arith} {c : Client} {T : Task} :
    (∀ s w, T.run τ c.world = (.ok s, w) → c.task τ T = (.ok .handle, ⟨w, c.entries, c.seqs ++ [s]⟩)) ∧
    (∀ e w, T.run τ c.world = (.error e, w) → c.task τ T = (.error e, { c with world := w })) := by
  unfold Client.task
  constructor
  · intro s w h
    rw [Client.call_eq.1 s w h]; simp
  · intro e w h
    exact Client.call_eq.2 e w h

/-- The returned sequence is new. -/
theorem Task.new {τ : Arith} {T : Task} {w w' : World} {s : ℕ} (h : T.run τ w = (.ok s, w')) :
    w.seqs.length ≤ s ∧ ∀ o, w'.seqs[s]? = some o → o.entries.Nodup := by
  have hg := T.gives τ w (Apart.start w)
  rw [Wp, h] at hg
  have hs : w.seqs.length ≤ s := hg.2 s rfl
  exact ⟨hs, fun o ho => (hg.1.apart.seq s o hs ho).1.1⟩

/-- A call that returns a sequence leaves the relation to the specification intact. -/
theorem Rel.task {c : Client} {Cs : List Compiler} {p : Plain} (h : Rel c p) (hS : Session 0 c Cs) {T : Task}
    (hT : T.Uses Cs) (hQ : T.OnQubits) :
    (∀ e w, T.run 0 c.world = (.error e, w) → Rel (c.task 0 T).2 p) ∧
    ∀ s w, T.run 0 c.world = (.ok s, w) → ∃ v, w.view s = some v ∧ v.isArray = false ∧
      Rel (c.task 0 T).2 { p with seqs := p.seqs ++ [v] } := by
  have hok := (hS.task hT).ok.1
  have hgive := T.gives_exact hQ c.world (Apart.start c.world)
  have hgrow := Task.grow hS hT
  have hold : ∀ w, (T.run 0 c.world).2 = w → (∀ r ∈ c.seqs, w.seqs[r]? = c.world.seqs[r]?) ∧ ExactEs w.entries ∧
      Grow c.world.entries w.entries := by
    rintro w rfl
    exact ⟨fun r hr => hgive.1.old r (h.seq_lt hr), hgive.1.vals h.exact, hgrow⟩
  have hcoh : ∀ w, (T.run 0 c.world).2 = w → Coh (· ∈ c.seqs) w := by
    intro w hw t o ht ho n hn
    obtain ⟨h1, -, h3⟩ := hold w hw
    rw [h1 t ht] at ho
    exact (h.coh t o ht ho n hn).grow (h.wf.seq ho) h3
  have hview : ∀ w, (T.run 0 c.world).2 = w → List.Forall₂ (fun r v => w.view r = some v) c.seqs p.seqs := by
    intro w hw
    obtain ⟨h1, -, h3⟩ := hold w hw
    have : ∀ r ∈ c.seqs, ∀ v, c.world.view r = some v → w.view r = some v := by
      intro r hr v hv
      obtain ⟨o, h4, rfl⟩ := view_eq_some.mp hv
      refine view_eq_some.mpr ⟨o, (h1 r hr).trans h4, (viewOf_grow (h.wf.seq h4) h3).symm⟩
    have hs := h.seqs
    revert hs this
    generalize c.seqs = rs
    generalize p.seqs = vs
    intro this hs
    induction hs with
    | nil => exact .nil
    | cons hab _ ih => exact .cons (this _ (by simp) _ hab) (ih fun r hr => this r (by simp [hr]))
  constructor
  · intro e w hr
    have hw : (T.run 0 c.world).2 = w := by rw [hr]
    rw [Client.task_eq.2 e w hr] at hok ⊢
    exact ⟨hok.wf, (hold w hw).2.1, hcoh w hw, h.ents.imp fun _ _ he => he.grow (hold w hw).2.2, hview w hw, h.nodup,
      h.pow⟩
  · intro s w hr
    have hw : (T.run 0 c.world).2 = w := by rw [hr]
    rw [Client.task_eq.1 s w hr] at hok ⊢
    obtain ⟨n, o, g1, g2, g3, g4⟩ := Task.good hS h.exact hT hQ hr
    refine ⟨viewOf w.entries o, view_eq_some.mpr ⟨o, g1, rfl⟩, g4, ⟨hok.wf, (hold w hw).2.1, ?_, ?_, ?_, hok.nodup, ?_⟩⟩
    · intro t o' ht ho' m hm
      rcases List.mem_append.mp ht with ht | ht
      · exact hcoh w hw t o' ht ho' m hm
      · rw [List.mem_singleton] at ht
        subst ht
        rw [show w.seqs[t]? = some o from g1] at ho'
        cases ho'
        have : m = n := Nat.pow_right_injective (le_refl 2) (hm.symm.trans g2)
        subst this
        exact g3
    · exact h.ents.imp fun _ _ he => he.grow (hold w hw).2.2
    · exact forall₂_append' (hview w hw) (.cons (view_eq_some.mpr ⟨o, g1, rfl⟩) .nil)
    · intro v hv
      rcases List.mem_append.mp hv with hv | hv
      · exact h.pow v hv
      · rw [List.mem_singleton] at hv
        subst hv
        exact ⟨n, g2⟩

theorem Mirror.rel {c : Client} {Cs : List Compiler} {p : Plain} (h : Mirror c Cs p) : Session 0 c Cs ∧ Rel c p := by
  induction h with
  | start rng => exact ⟨.start rng, rel_start rng⟩
  | op o _ hq hi ih => exact ⟨.op o ih.1, (step_refines ih.2 hq hi).2⟩
  | @newCompiler c Cs p C w D ps arr probs pa rate _ hn ih =>
    refine ⟨.newCompiler _ _ _ _ _ _ ih.1 hn, ?_⟩
    obtain ⟨-, -, -, rfl⟩ := new_compiler_eq hn
    have h := ih.2
    exact ⟨⟨h.wf.1, h.wf.2⟩, h.exact, h.coh, h.ents, h.seqs, h.nodup, h.pow⟩
  | taskOk T _ hT hQ hr hv ih =>
    obtain ⟨v', h1, -, h2⟩ := (ih.2.task ih.1 hT hQ).2 _ _ hr
    rw [hv] at h1
    cases h1
    exact ⟨ih.1.task hT, h2⟩
  | taskFails T _ hT hQ hr ih => exact ⟨ih.1.task hT, (ih.2.task ih.1 hT hQ).1 _ _ hr⟩

end Stoq
