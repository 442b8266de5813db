import Verif.Proofs.Rav
import Verif.Props.CompileExamples

/-!
# C42 - C44: randomized verification sequences
-/

namespace Stoq

open World Compiler Matrix Verification

/-! ## Consequences of the outcome of the common part -/

/-- What the code must do: the same random gates and the same walk as the specification, or the same exception; the
sequence returned is new, holds the random gates followed by the gates the walk ends with, and its product is the
circuit of these gates. -/
def FollowsPlan (n : ℕ) (plan : PyM Rng (List EntryVal × List Metropolis.State)) (w : World)
    (out : Except PyErr CompilerResult × World) : Prop :=
  match plan w.rng with
  | (.error e, r) => out.1 = .error e ∧ out.2.rng = r
  | (.ok (pre, walk), r) => out.2.rng = r ∧ ∃ R, out.1 = .ok R ∧
      R.costByStep = walk.map (fun st => Metropolis.cost n (circuit n pre)ᴴ st.gates) ∧
      (∃ undo, out.2.view R.sequence = some ⟨2 ^ n, false, pre ++ Rav.final walk, undo⟩) ∧
      (∃ p, (Seq.product 0 R.sequence out.2).1 = .ok p ∧ p.Exact (2 ^ n) ∧
        p.Holds (circuit n (pre ++ Rav.final walk))) ∧
      w.view R.sequence = none

theorem plan_of_post {n : ℕ} {G G' : EntryVal → Prop} {random : PyM Rng (List EntryVal)}
    {prop : List EntryVal → PyM Rng (List EntryVal)} {rate cap : ℝ} {D : ℕ} {threshold : Option ℝ} {skip : Prop}
    {m : ℤ} {T : Prop} {w : World}
    {out : Except PyErr CompilerResult × World} (hD : D = 2 ^ n) (hex : ∀ x ∈ w.entries, x.toVal.Exact)
    (hG : ∀ v, G v → v.Fits n ∧ v.Exact) (hG' : ∀ v, G' v → v.Fits n ∧ v.Exact) (hT : T)
    (h : RavPost 0 G G' random prop rate cap D threshold skip m T w out.1 out.2) :
    FollowsPlan n (Rav.plan n random prop rate cap threshold skip m) w out := by
  unfold FollowsPlan
  have hx := h.exact n rfl hD hex hG hG' hT
  revert hx
  rcases Rav.plan n random prop rate cap threshold skip m w.rng with ⟨e | ⟨pre, walk⟩, r⟩
  · exact fun hx => hx
  · rintro ⟨h1, R, o', h2, h3, h4, h5, h6⟩
    obtain ⟨-, -, o2, -, g1, g2, g3, g4, -⟩ := h.ok R h2
    rw [h4] at g2; cases g2
    refine ⟨h1, R, h2, h3, ⟨o'.previousEntries.map (valsOf out.2.entries), ?_⟩, ?_, ?_⟩
    · exact view_eq_some.mpr ⟨o', h4, by rw [viewOf, g3, g4, h5, hD]⟩
    · have hp := product_wp h.safe.wf h4
      rw [Wp] at hp
      obtain ⟨o3, hp⟩ := hp
      obtain ⟨p, k1, k2, k3, -⟩ := hp.exact n h6
      exact ⟨p, k1, k2, k2.rows, k2.cols, by rw [k3, h5]⟩
    · unfold World.view
      rw [List.getElem?_eq_none g1]; rfl

/-- The distance guarantee: the distance of the product from the identity is the last cost, and within the threshold
if compilation was not skipped and stopped before the budget was used up. -/
def DistanceGuarantee (n : ℕ) (threshold : Option ℝ) (skip : Prop) (m : ℤ) (R : CompilerResult) (w' : World) : Prop :=
  ∃ p one x, (Seq.product 0 R.sequence w').1 = .ok p ∧ Unitary.identity 0 (2 ^ n) = .ok one ∧
    one.distanceFrom 0 p = .ok x ∧
    (∀ c, R.costByStep.getLast? = some c → x = c) ∧
    (¬ skip → (R.costByStep.length : ℤ) < m →
      Metropolis.GoodEnough threshold x ∧ p.closeTo 0 one threshold = .ok true)

theorem distance_of_plan {n : ℕ} {random : PyM Rng (List EntryVal)}
    {prop : List EntryVal → PyM Rng (List EntryVal)} {rate cap : ℝ} {threshold : Option ℝ} {skip : Prop} {m : ℤ}
    {w w' : World} {R : CompilerResult}
    (h : FollowsPlan n (Rav.plan n random prop rate cap threshold skip m) w (.ok R, w')) :
    DistanceGuarantee n threshold skip m R w' := by
  unfold FollowsPlan at h
  revert h
  rcases hplan : Rav.plan n random prop rate cap threshold skip m w.rng with ⟨e | ⟨pre, walk⟩, r⟩
  · rintro ⟨h, -⟩
    cases h
  rintro ⟨-, R', h1, h2, -, ⟨p, h3, h4, h5⟩, -⟩
  cases h1
  have hpos : 0 < 2 ^ n := by positivity
  have hone := Unitary.identity_eq hpos
  have hex : Unitary.Exact ⟨Arr.identity (2 ^ n), "I", [], false, []⟩ (2 ^ n) :=
    ⟨hpos, rfl, rfl, by rw [Arr.toMatrix_identity]; exact one_mem _⟩
  have hm : p.matrix.toMatrix (2 ^ n) = circuit n (pre ++ Rav.final walk) := h5.2.2
  refine ⟨p, _, _, h3, hone, Unitary.distanceFrom_eq hex h4, fun c hc => ?_, fun hsk hlt => ?_⟩
  · rw [h2, List.getLast?_map] at hc
    obtain ⟨st, hst, rfl⟩ := Option.map_eq_some_iff.mp hc
    simp only
    rw [Arr.toMatrix_identity, hm, Rav.overlap_whole, Rav.final, hst]
    rfl
  · obtain ⟨r1, -, hr⟩ := Rav.plan_ok hplan
    rcases hr with ⟨hr, -⟩ | ⟨-, hrun⟩
    · exact absurd hr hsk
    have hgood := Metropolis.run_stop hrun (by rw [h2, List.length_map] at hlt; omega)
    have hx : Metropolis.cost n (circuit n pre)ᴴ (Rav.final walk) = 1 - overlap 1 (p.matrix.toMatrix (2 ^ n)) := by
      rw [hm, Rav.overlap_whole]; rfl
    have hgood : Metropolis.GoodEnough threshold (1 - overlap 1 (p.matrix.toMatrix (2 ^ n))) := hx ▸ hgood
    simp only
    rw [Arr.toMatrix_identity]
    refine ⟨hgood, ?_⟩
    rcases threshold with _ | t
    · rw [Unitary.closeTo_none_eq h4 hex]
      simp only
      rw [Arr.toMatrix_identity, overlap_comm, decide_eq_true]
      exact le_of_le_of_eq hgood (by norm_num)
    · have hle : 1 - overlap 1 (p.matrix.toMatrix (2 ^ n)) ≤ 1 - t := hgood
      rw [Unitary.closeTo_some_eq h4 hex]
      simp only
      rw [Arr.toMatrix_identity, overlap_comm, decide_eq_true (by linarith)]

/-! ## C42 -/

/-- C42: on an `n`-qubit system with valid primitives and in exact arithmetic, `generate_rav_sequence` produces
exactly the random gates and the walk of the specification (or the same exception), from any state of a session. -/
theorem C42_rav_is_plan {c : Client} {Cs : List Compiler} (hs : Session 0 c Cs)
    (hex : ∀ x ∈ c.world.entries, x.toVal.Exact) {n : ℕ} {prims : List Primitive} {arr : Bool}
    (hprims : ∀ q ∈ prims, q.Valid n) (hne : prims ≠ []) (harr : ¬ (arr = true ∧ prims.length > 1)) {L : ℤ}
    (hL : 0 ≤ L) {t : ℝ} (ht : 0 ≤ t ∧ t ≤ 1) (p : ℝ) (probs : Option (List ℝ)) (m : ℤ) :
    FollowsPlan n (Rav.plan n (Rav.blocks (Metropolis.one (createRandomEntryVal 0 (2 ^ n) prims probs)) L.toNat)
      ((ravCompiler (2 ^ n) prims arr probs p 0).proposal 0) 0.1 (((2 : ℝ) ^ 2 ^ n) ^ 2) (some t) (t = 0 ∨ m = 0) m) c.world
      (generateRavSequence 0 (2 ^ n) prims arr L (some t) p probs m c.world) := by
  rw [rav_eq, checked_ok _ (fun q hq => valid_dimension (hprims q hq)) hL ht]
  have hp := rav_post (2 ^ n) prims arr L.toNat t p probs m hs.ok.1.wf
  rw [Wp] at hp
  exact plan_of_post rfl hex (fun v hv => generated_good hprims hv) (fun v hv => generated_good hprims hv)
    ⟨⟨by positivity, fun q hq => valid_dimension (hprims q hq)⟩, hne, harr⟩ hp

/-- C42: for every matrix arithmetic, a successful `generate_rav_sequence` returns a new sequence of
`sequence_length` random gates followed by the compiled ones; all of them are instances of the primitives on qubits
they may act on, and one cost is recorded for each of at most `max_step_count` steps. -/
theorem C42_rav_shape {τ : Arith} {c : Client} {Cs : List Compiler} (hs : Session τ c Cs) {D : ℕ}
    {prims : List Primitive} {arr : Bool} {L : ℤ} {threshold : Option ℝ} {p : ℝ} {probs : Option (List ℝ)} {m : ℤ}
    {R : CompilerResult} {w' : World}
    (h : generateRavSequence τ D prims arr L threshold p probs m c.world = (.ok R, w')) :
    c.world.view R.sequence = none ∧ ∃ pre compiled undo,
      w'.view R.sequence = some ⟨D, false, pre ++ compiled, undo⟩ ∧ (pre.length : ℤ) = L ∧
      (∀ g ∈ pre ++ compiled, g.WF ∧ ∃ q ∈ prims, FromPrimitive τ (intLog2 D) q g) ∧
      (R.costByStep.length : ℤ) ≤ max m 0 ∧ compiled.length ≤ R.costByStep.length := by
  rw [rav_eq] at h
  rcases checked_cases (∀ q ∈ prims, q.getDimension ≤ D) (L ≥ 0) threshold (fun t =>
    ravWith τ D (fun s => appendBlocks τ (do let e ← createRandomSequenceEntry τ D prims probs; return [e]) s L.toNat)
          (t = 0 ∨ m = 0) (newCompile τ D prims arr probs p (some t) m)) c.world with ⟨e, h'⟩ | ⟨t, -, -, hL, -, -, h'⟩
  · rw [h'] at h; cases h
  rw [h'] at h
  have hp := rav_post D prims arr L.toNat t p probs m hs.ok.1.wf
  rw [Wp, h] at hp
  obtain ⟨pre, r1, o', h1, h2, h3, h4, h5, h6, h7⟩ := hp.ok R rfl
  obtain ⟨hlen, hgen⟩ := Rav.blocks_one h1
  refine ⟨by unfold World.view; rw [List.getElem?_eq_none h2]; rfl, ?_⟩
  have hfrom : ∀ v, Generated τ D prims probs v → v.WF ∧ ∃ q ∈ prims, FromPrimitive τ (intLog2 D) q v := by
    intro v hv
    obtain ⟨g1, q, g2, -, g3⟩ := generated_from hv
    exact ⟨g1, q, g2, g3⟩
  by_cases hskip : t = 0 ∨ m = 0
  · obtain ⟨h8, h9, h10⟩ := h6 hskip
    refine ⟨pre, [], o'.previousEntries.map (valsOf w'.entries),
      view_eq_some.mpr ⟨o', h3, by rw [viewOf, h4, h5, h10, List.append_nil]⟩, by omega, ?_, by rw [h8]; simp, by simp⟩
    intro g hg
    rw [List.append_nil] at hg
    exact hfrom g (hgen g hg)
  · obtain ⟨-, gates, b', h8, h9, h10⟩ := h7 hskip
    have hall := Metropolis.Walk.inv (P := fun g => (∀ v ∈ g, Generated τ D prims probs v))
      (fun _ _ _ _ hg h => proposal_forall (C := ravCompiler D prims arr probs p 0) hg h) h9 (by simp)
    refine ⟨pre, gates, o'.previousEntries.map (valsOf w'.entries),
      view_eq_some.mpr ⟨o', h3, by rw [viewOf, h4, h5, h10]⟩, by omega, ?_, ?_, ?_⟩
    · intro g hg
      rcases List.mem_append.mp hg with hg | hg
      · exact hfrom g (hgen g hg)
      · exact hfrom g (hall g hg)
    · rcases h8 with h8 | h8
      · simp [h8]
      · exact le_trans h8 (le_max_left _ _)
    · simpa using Metropolis.Walk.length (fun _ _ _ _ h => proposal_length (C := ravCompiler D prims arr probs p 0) h) h9

/-- C42: in exact arithmetic the distance of the product from the identity is the last recorded cost, and within the
threshold if compilation stopped before the budget was used up. -/
theorem C42_rav_distance {c : Client} {Cs : List Compiler} (hs : Session 0 c Cs)
    (hex : ∀ x ∈ c.world.entries, x.toVal.Exact) {n : ℕ} {prims : List Primitive} {arr : Bool}
    (hprims : ∀ q ∈ prims, q.Valid n) (hne : prims ≠ []) (harr : ¬ (arr = true ∧ prims.length > 1)) {L : ℤ}
    (hL : 0 ≤ L) {t : ℝ} (ht : 0 ≤ t ∧ t ≤ 1) {p : ℝ} {probs : Option (List ℝ)} {m : ℤ} {R : CompilerResult}
    {w' : World} (h : generateRavSequence 0 (2 ^ n) prims arr L (some t) p probs m c.world = (.ok R, w')) :
    DistanceGuarantee n (some t) (t = 0 ∨ m = 0) m R w' := by
  have := C42_rav_is_plan hs hex hprims hne harr hL ht p probs m
  rw [h] at this
  exact distance_of_plan this

/-- C42: with valid arguments it never raises an exception, whatever the random outcomes. -/
theorem C42_rav_never_raises {c : Client} {Cs : List Compiler} (hs : Session 0 c Cs)
    (hex : ∀ x ∈ c.world.entries, x.toVal.Exact) {n : ℕ} {prims : List Primitive} {arr : Bool}
    (hprims : ∀ q ∈ prims, q.Valid n) (hne : prims ≠ []) (harr : ¬ (arr = true ∧ prims.length > 1)) {L : ℤ}
    (hL : 0 ≤ L) {t : ℝ} (ht : 0 ≤ t ∧ t ≤ 1) {p : ℝ} (hp : 0 ≤ p ∧ p ≤ 1) {probs : Option (List ℝ)}
    (hch : ChoiceOk prims probs) (m : ℤ) :
    ∃ R w', generateRavSequence 0 (2 ^ n) prims arr L (some t) p probs m c.world = (.ok R, w') := by
  have h := C42_rav_is_plan hs hex hprims hne harr hL ht p probs m
  have hf : ∀ r, ∃ vs r', Metropolis.one (createRandomEntryVal 0 (2 ^ n) prims probs) r = (.ok vs, r') := by
    intro r
    obtain ⟨v, r', h, -⟩ := createRandomEntryVal_valid hch hprims r
    exact ⟨[v], r', Metropolis.one_ok_iff.mpr ⟨v, h, rfl⟩⟩
  obtain ⟨pre, r1, hpre⟩ := Rav.blocks_valid hf L.toNat c.world.rng
  obtain ⟨walk, r', hplan⟩ := Rav.plan_valid (n := n)
    (prop := (ravCompiler (2 ^ n) prims arr probs p 0).proposal 0) (rate := 0.1)
    (cap := ((2 : ℝ) ^ 2 ^ n) ^ 2) (threshold := some t) (skip := t = 0 ∨ m = 0) (m := m)
    (fun g r => Metropolis.propose_ok hp hf 1 g r) hpre
  unfold FollowsPlan at h
  rw [hplan] at h
  obtain ⟨-, R, h1, -⟩ := h
  exact ⟨R, _, Prod.ext h1 rfl⟩

/-- C42: it does not touch anything that existed before: the sequences and gates the client holds, and its compilers,
for every matrix arithmetic and also when it fails. -/
theorem C42_rav_frame {τ : Arith} {c : Client} {Cs : List Compiler} (hs : Session τ c Cs) (D : ℕ)
    (prims : List Primitive) (arr : Bool) (L : ℤ) (threshold : Option ℝ) (p : ℝ) (probs : Option (List ℝ)) (m : ℤ)
    {c' : Client} (hc' : c' = (c.call (generateRavSequence τ D prims arr L threshold p probs m)
      (fun _ _ => .handle) (fun _ => []) (fun R => [R.sequence])).2) :
    (∀ i v, c.seq i = some v → c'.seq i = some v) ∧ (∀ i v, c.entry i = some v → c'.entry i = some v) ∧
      ∀ C ∈ Cs, c'.world.annealing C = c.world.annealing C := by
  subst hc'
  exact (rav_safe hs.ok.1.wf).1.frame hs.ok.1 hs.ok.2

/-! ## C43 -/

/-- C43: `generate_layered_rav_sequence` in exact arithmetic. -/
theorem C43_layered_is_plan {c : Client} {Cs : List Compiler} (hs : Session 0 c Cs)
    (hex : ∀ x ∈ c.world.entries, x.toVal.Exact) {n : ℕ} {counts : List (Primitive × ℤ)}
    (hprims : ∀ pc ∈ counts, pc.1.Valid n) {L : ℤ} (hL : 0 ≤ L) {t : ℝ} (ht : 0 ≤ t ∧ t ≤ 1) (p : ℝ) (m : ℤ) :
    FollowsPlan n (Rav.plan n
      (Rav.blocks (Metropolis.layer (fun q => createRandomEntryVal 0 (2 ^ n) [q] none) counts) L.toNat)
      ((ravCompiler (2 ^ n) (counts.map (·.1)) false none p 0).layeredProposal 0 counts) 0.1
      (((2 : ℝ) ^ 2 ^ n) ^ 2) (some t) (t = 0 ∨ m = 0) m) c.world
      (generateLayeredRavSequence 0 (2 ^ n) counts L (some t) p m c.world) := by
  rw [layeredRav_eq, checked_ok _ (fun q hq => valid_dimension (hprims q hq)) hL ht]
  have hp := layeredRav_post (2 ^ n) counts L.toNat t p m hs.ok.1.wf
  rw [Wp] at hp
  exact plan_of_post rfl hex (fun v hv => generatedLayer_good hprims hv) (fun v hv => generatedLayer_good hprims hv)
    ⟨by positivity, fun q hq => valid_dimension (hprims q hq)⟩ hp

/-- C43: for every matrix arithmetic and non-negative counts, a successful `generate_layered_rav_sequence` returns
`layer_count` complete layers followed by complete compiled layers, at most one for each step. -/
theorem C43_layered_shape {τ : Arith} {c : Client} {Cs : List Compiler} (hs : Session τ c Cs) {D : ℕ}
    {counts : List (Primitive × ℤ)} (hc : ∀ pc ∈ counts, 0 ≤ pc.2) {L : ℤ} {threshold : Option ℝ} {p : ℝ} {m : ℤ}
    {R : CompilerResult} {w' : World}
    (h : generateLayeredRavSequence τ D counts L threshold p m c.world = (.ok R, w')) :
    c.world.view R.sequence = none ∧ ∃ (pre compiled : List (List EntryVal)) (undo : Option (List EntryVal)),
      w'.view R.sequence = some ⟨D, false, pre.flatten ++ compiled.flatten, undo⟩ ∧ (pre.length : ℤ) = L ∧
      (∀ l ∈ pre ++ compiled, IsLayer τ (intLog2 D) counts l) ∧
      ((pre.flatten ++ compiled.flatten).length : ℤ) =
        (L + compiled.length) * (counts.map Prod.snd).sum ∧
      (compiled.length ≤ R.costByStep.length ∧ (R.costByStep.length : ℤ) ≤ max m 0) ∧
      ((threshold = some 0 ∨ m = 0) → compiled = [] ∧ R.costByStep = []) := by
  rw [layeredRav_eq] at h
  rcases checked_cases (∀ pc ∈ counts, pc.1.getDimension ≤ D) (L ≥ 0) threshold (fun t =>
    ravWith τ D (fun s => appendBlocks τ (createRandomLayer τ D counts) s L.toNat) (t = 0 ∨ m = 0)
      (newCompileLayered τ D counts p (some t) m)) c.world with
    ⟨e, h'⟩ | ⟨t, rfl, -, hL, -, -, h'⟩
  · rw [h'] at h; cases h
  rw [h'] at h
  have hp := layeredRav_post D counts L.toNat t p m hs.ok.1.wf
  rw [Wp, h] at hp
  obtain ⟨pre, r1, o', h1, h2, h3, h4, h5, h6, h7⟩ := hp.ok R rfl
  obtain ⟨bs, rfl, hlen, hgen⟩ := Rav.blocks_ok h1
  have hlay : ∀ b ∈ bs, IsLayer τ (intLog2 D) counts b := by
    intro b hb
    obtain ⟨r1, r2, h⟩ := hgen b hb
    exact layer_isLayer h
  refine ⟨by unfold World.view; rw [List.getElem?_eq_none h2]; rfl, ?_⟩
  have hcount : ∀ compiled : List (List EntryVal), (∀ l ∈ compiled, IsLayer τ (intLog2 D) counts l) →
      ((bs.flatten ++ compiled.flatten).length : ℤ) = (L + compiled.length) * (counts.map Prod.snd).sum := by
    intro compiled hcp
    rw [List.length_append, Nat.cast_add, layered_length hc hlay, layered_length hc hcp, hlen,
      Int.toNat_of_nonneg hL]
    ring
  by_cases hskip : t = 0 ∨ m = 0
  · obtain ⟨h8, h9, h10⟩ := h6 hskip
    refine ⟨bs, [], o'.previousEntries.map (valsOf w'.entries),
      view_eq_some.mpr ⟨o', h3, ?_⟩, by omega, ?_, hcount [] (by simp), by rw [h8]; simp, fun _ => ⟨rfl, h8⟩⟩
    · rw [viewOf, h4, h5, h10]; simp
    · simpa using hlay
  · obtain ⟨-, gates, b', h8, h9, h10⟩ := h7 hskip
    obtain ⟨layers, h11, h12, h13⟩ := Metropolis.Walk.grow (P := Layered τ (intLog2 D) counts) (fun _ _ hg => hg.mono)
      (fun _ _ _ _ _ hg h => layeredProposal_layered (C := ravCompiler D (counts.map (·.1)) false none p 0) hc hg h) h9
      (j := 0) ⟨[], rfl, by simp, by simp⟩
    refine ⟨bs, layers, o'.previousEntries.map (valsOf w'.entries),
      view_eq_some.mpr ⟨o', h3, by rw [viewOf, h4, h5, h10, h11]⟩, by omega, ?_, hcount layers h12, ?_, ?_⟩
    · intro l hl
      rcases List.mem_append.mp hl with hl | hl
      · exact hlay l hl
      · exact h12 l hl
    · refine ⟨by simpa using h13, ?_⟩
      rcases h8 with h8 | h8
      · simp [h8]
      · exact le_trans h8 (le_max_left _ _)
    · rintro (h | h)
      · exact absurd (.inl (Option.some.inj h)) hskip
      · exact absurd (.inr h) hskip

/-- C43: the distance guarantee for layers. -/
theorem C43_layered_distance {c : Client} {Cs : List Compiler} (hs : Session 0 c Cs)
    (hex : ∀ x ∈ c.world.entries, x.toVal.Exact) {n : ℕ} {counts : List (Primitive × ℤ)}
    (hprims : ∀ pc ∈ counts, pc.1.Valid n) {L : ℤ} (hL : 0 ≤ L) {t : ℝ} (ht : 0 ≤ t ∧ t ≤ 1) {p : ℝ} {m : ℤ}
    {R : CompilerResult} {w' : World}
    (h : generateLayeredRavSequence 0 (2 ^ n) counts L (some t) p m c.world = (.ok R, w')) :
    DistanceGuarantee n (some t) (t = 0 ∨ m = 0) m R w' := by
  have := C43_layered_is_plan hs hex hprims hL ht p m
  rw [h] at this
  exact distance_of_plan this

/-- C43: with valid arguments `generate_layered_rav_sequence` never raises an exception. -/
theorem C43_layered_never_raises {c : Client} {Cs : List Compiler} (hs : Session 0 c Cs)
    (hex : ∀ x ∈ c.world.entries, x.toVal.Exact) {n : ℕ} {counts : List (Primitive × ℤ)}
    (hprims : ∀ pc ∈ counts, pc.1.Valid n) (hus : ∀ pc ∈ counts, 0 < pc.2 → pc.1.allowedApplyTo ≠ some [])
    {L : ℤ} (hL : 0 ≤ L) {t : ℝ} (ht : 0 ≤ t ∧ t ≤ 1) {p : ℝ} (hp : 0 ≤ p ∧ p ≤ 1) (m : ℤ) :
    ∃ R w', generateLayeredRavSequence 0 (2 ^ n) counts L (some t) p m c.world = (.ok R, w') := by
  have h := C43_layered_is_plan hs hex hprims hL ht p m
  have hf := fun r => layer_valid (D := 2 ^ n) rfl hprims hus r
  obtain ⟨pre, r1, hpre⟩ := Rav.blocks_valid hf L.toNat c.world.rng
  obtain ⟨walk, r', hplan⟩ := Rav.plan_valid (n := n)
    (prop := (ravCompiler (2 ^ n) (counts.map (·.1)) false none p 0).layeredProposal 0 counts) (rate := 0.1)
    (cap := ((2 : ℝ) ^ 2 ^ n) ^ 2) (threshold := some t) (skip := t = 0 ∨ m = 0) (m := m)
    (fun g r => Metropolis.propose_ok hp hf _ g r) hpre
  unfold FollowsPlan at h
  rw [hplan] at h
  obtain ⟨-, R, h1, -⟩ := h
  exact ⟨R, _, Prod.ext h1 rfl⟩

/-- C43: `generate_xeb_sequence` returns exactly `layer_count * sum(counts)` gates forming complete layers, and no
costs, for every matrix arithmetic. -/
theorem C43_xeb {τ : Arith} {c : Client} {Cs : List Compiler} (hs : Session τ c Cs) {D : ℕ}
    {counts : List (Primitive × ℤ)} (hc : ∀ pc ∈ counts, 0 ≤ pc.2) {L : ℤ} {R : CompilerResult} {w' : World}
    (h : generateXebSequence τ D counts L c.world = (.ok R, w')) :
    R.costByStep = [] ∧ ∃ (layers : List (List EntryVal)) (undo : Option (List EntryVal)),
      w'.view R.sequence = some ⟨D, false, layers.flatten, undo⟩ ∧ (layers.length : ℤ) = L ∧
      (∀ l ∈ layers, IsLayer τ (intLog2 D) counts l) ∧
      (layers.flatten.length : ℤ) = L * (counts.map Prod.snd).sum := by
  obtain ⟨-, pre, compiled, undo, h1, h2, h3, h4, -, h5⟩ := C43_layered_shape hs hc h
  obtain ⟨rfl, h6⟩ := h5 (.inl rfl)
  refine ⟨h6, pre, undo, by simpa using h1, h2, by simpa using h3, ?_⟩
  simpa using h4

/-! ## C44 -/

/-- C44: with threshold 0 or budget 0, `generate_rav_sequence` returns only the random gates and no costs; it draws no
further random numbers. -/
theorem C44_only_random {τ : Arith} {c : Client} {Cs : List Compiler} (hs : Session τ c Cs) {D : ℕ}
    {prims : List Primitive} {arr : Bool} {L : ℤ} {threshold : Option ℝ} {p : ℝ} {probs : Option (List ℝ)} {m : ℤ}
    (hskip : threshold = some 0 ∨ m = 0) {R : CompilerResult} {w' : World}
    (h : generateRavSequence τ D prims arr L threshold p probs m c.world = (.ok R, w')) :
    R.costByStep = [] ∧ ∃ gates undo, w'.view R.sequence = some ⟨D, false, gates, undo⟩ ∧ (gates.length : ℤ) = L ∧
      Rav.blocks (Metropolis.one (createRandomEntryVal τ D prims probs)) L.toNat c.world.rng = (.ok gates, w'.rng) := by
  rw [rav_eq] at h
  rcases checked_cases (∀ q ∈ prims, q.getDimension ≤ D) (L ≥ 0) threshold (fun t =>
    ravWith τ D (fun s => appendBlocks τ (do let e ← createRandomSequenceEntry τ D prims probs; return [e]) s L.toNat)
          (t = 0 ∨ m = 0) (newCompile τ D prims arr probs p (some t) m)) c.world with ⟨e, h'⟩ | ⟨t, rfl, -, hL, -, -, h'⟩
  · rw [h'] at h; cases h
  rw [h'] at h
  have hp := rav_post D prims arr L.toNat t p probs m hs.ok.1.wf
  rw [Wp, h] at hp
  obtain ⟨pre, r1, o', h1, h2, h3, h4, h5, h6, h7⟩ := hp.ok R rfl
  obtain ⟨h8, rfl, h10⟩ := h6 (by
    rcases hskip with h | h
    · exact .inl (Option.some.inj h)
    · exact .inr h)
  obtain ⟨hlen, -⟩ := Rav.blocks_one h1
  exact ⟨h8, pre, o'.previousEntries.map (valsOf w'.entries),
    view_eq_some.mpr ⟨o', h3, by rw [viewOf, h4, h5, h10]⟩, by omega, h1⟩

/-- C44: with threshold 0 or budget 0 and no random part there is nothing to do: whatever the other arguments, even
without primitives, the call returns an empty new sequence, draws no random numbers and makes no compiler. -/
theorem C44_nothing_to_do (τ : Arith) {D : ℕ} {prims : List Primitive} (hprims : ∀ q ∈ prims, q.getDimension ≤ D)
    (arr : Bool) {counts : List (Primitive × ℤ)} (hcounts : ∀ pc ∈ counts, pc.1.getDimension ≤ D) {t : ℝ}
    (ht : 0 ≤ t ∧ t ≤ 1) (p : ℝ) (probs : Option (List ℝ)) {m : ℤ} (hskip : t = 0 ∨ m = 0) (w : World) :
    ∃ w', generateRavSequence τ D prims arr 0 (some t) p probs m w = (.ok ⟨w.seqs.length, []⟩, w') ∧
      generateLayeredRavSequence τ D counts 0 (some t) p m w = (.ok ⟨w.seqs.length, []⟩, w') ∧
      w'.view w.seqs.length = some ⟨D, false, [], none⟩ ∧ w'.entries = w.entries ∧ w'.betas = w.betas ∧
      w'.rng = w.rng ∧ ∀ s < w.seqs.length, w'.seqs[s]? = w.seqs[s]? := by
  refine ⟨{ w with seqs := w.seqs ++ [⟨D, false, [], none, none, none⟩] }, ?_, ?_, ?_, rfl, rfl, rfl,
    fun s hs => List.getElem?_append_left hs⟩
  · rw [rav_eq, checked_ok _ hprims le_rfl ht]
    unfold ravWith
    simp only [if_pos hskip]
    rfl
  · rw [layeredRav_eq, checked_ok _ hcounts le_rfl ht]
    unfold ravWith
    simp only [if_pos hskip]
    rfl
  · exact view_eq_some.mpr ⟨⟨D, false, [], none, none, none⟩, by simp, rfl⟩

/-- C44: a threshold outside `[0, 1]` is refused, without any effect. -/
theorem C44_threshold_out_of_range (τ : Arith) (D : ℕ) (prims : List Primitive) (arr : Bool) (L : ℤ) {t : ℝ}
    (ht : t < 0 ∨ 1 < t) (p : ℝ) (probs : Option (List ℝ)) (m : ℤ) (counts : List (Primitive × ℤ)) (w : World) :
    generateRavSequence τ D prims arr L (some t) p probs m w = (.error .assertion, w) ∧
    generateLayeredRavSequence τ D counts L (some t) p m w = (.error .assertion, w) := by
  constructor
  · rw [rav_eq]
    exact checked_some _ (fun h => by rcases ht with ht | ht <;> linarith [h.2.2.1, h.2.2.2]) w
  · rw [layeredRav_eq]
    exact checked_some _ (fun h => by rcases ht with ht | ht <;> linarith [h.2.2.1, h.2.2.2]) w

/-- C44: threshold `None`, although documented, always raises an exception: TypeError if the other arguments pass
their checks. -/
theorem C44_threshold_none (τ : Arith) (D : ℕ) (prims : List Primitive) (arr : Bool) (L : ℤ) (p : ℝ)
    (probs : Option (List ℝ)) (m : ℤ) (counts : List (Primitive × ℤ)) (w : World) :
    ((∀ q ∈ prims, q.getDimension ≤ D) → 0 ≤ L →
      generateRavSequence τ D prims arr L none p probs m w = (.error .typeError, w)) ∧
    ((∀ pc ∈ counts, pc.1.getDimension ≤ D) → 0 ≤ L →
      generateLayeredRavSequence τ D counts L none p m w = (.error .typeError, w)) ∧
    (∃ e, generateRavSequence τ D prims arr L none p probs m w = (.error e, w)) ∧
    (∃ e, generateLayeredRavSequence τ D counts L none p m w = (.error e, w)) := by
  rw [rav_eq, layeredRav_eq]
  refine ⟨fun h1 h2 => checked_none _ h1 h2 w, fun h1 h2 => checked_none _ h1 h2 w, ?_, ?_⟩
  · by_cases h : (∀ q ∈ prims, q.getDimension ≤ D) ∧ L ≥ 0
    · exact ⟨_, checked_none _ h.1 h.2 w⟩
    · exact ⟨_, checked_bad _ h w⟩
  · by_cases h : (∀ pc ∈ counts, pc.1.getDimension ≤ D) ∧ L ≥ 0
    · exact ⟨_, checked_none _ h.1 h.2 w⟩
    · exact ⟨_, checked_bad _ h w⟩

/-! ## Cases that meet the hypotheses -/

theorem zPrims_valid : ∀ q ∈ [zPrim], q.Valid 1 := zCompiler_prims 1 1 0

theorem zPrims_choice : ChoiceOk [zPrim] none := zCompiler_choice 1 1 0

theorem zCounts_valid : ∀ pc ∈ [(zPrim, (2 : ℤ))], pc.1.Valid 1 := by
  intro pc hpc
  obtain rfl := List.mem_singleton.mp hpc
  exact zPrim_valid le_rfl

/-- C42: three random gates and at most five steps, for all random outcomes. -/
example (rng : Rng) : ∃ R w', generateRavSequence 0 2 [zPrim] false 3 (some 1) (1 / 2) none 5 (zClient rng).world =
      (.ok R, w') ∧ DistanceGuarantee 1 (some 1) (1 = (0 : ℝ) ∨ (5 : ℤ) = 0) 5 R w' ∧ (R.costByStep.length : ℤ) ≤ 5 ∧
    ∃ v, w'.view R.sequence = some v ∧ 3 ≤ v.entries.length := by
  obtain ⟨R, w', h⟩ := C42_rav_never_raises (zSession 0 rng (1 / 2) 1) (zClient_entries rng) (n := 1) (arr := false)
    zPrims_valid (by simp) (by simp) (L := 3) (by norm_num) (t := 1) ⟨by norm_num, le_rfl⟩ (p := 1 / 2)
    ⟨by norm_num, by norm_num⟩ zPrims_choice 5
  obtain ⟨-, pre, compiled, undo, h1, h2, -, h3, -⟩ := C42_rav_shape (zSession 0 rng (1 / 2) 1) h
  refine ⟨R, w', h, C42_rav_distance (zSession 0 rng (1 / 2) 1) (zClient_entries rng) zPrims_valid (by simp) (by simp)
    (by norm_num) ⟨by norm_num, le_rfl⟩ h, by simpa using h3, _, h1, ?_⟩
  simp only [List.length_append]
  omega

/-- C42, C44: with threshold 0 the three gates themselves. -/
example (rng : Rng) : ∃ R w' undo, generateRavSequence 0 2 [zPrim] false 3 (some 0) (1 / 2) none 5 (zClient rng).world =
    (.ok R, w') ∧ R.costByStep = [] ∧ w'.view R.sequence = some ⟨2, false, [zGate, zGate, zGate], undo⟩ := by
  obtain ⟨R, w', h⟩ := C42_rav_never_raises (zSession 0 rng (1 / 2) 1) (zClient_entries rng) (n := 1) (arr := false)
    zPrims_valid (by simp) (by simp) (L := 3) (by norm_num) (t := 0) ⟨le_rfl, by norm_num⟩ (p := 1 / 2)
    ⟨by norm_num, by norm_num⟩ zPrims_choice 5
  obtain ⟨h1, gates, undo, h2, -, h3⟩ := C44_only_random (zSession 0 rng (1 / 2) 1) (.inl rfl) h
  have h4 : ∀ r, Metropolis.one (createRandomEntryVal 0 (2 ^ 1) [zPrim] none) r =
      (.ok [zGate], { r with npos := r.npos + 2 }) := fun r =>
    Metropolis.one_ok_iff.mpr ⟨zGate, zPrim_gen 0 2 r, rfl⟩
  have h5 : ∀ r, Rav.blocks (Metropolis.one (createRandomEntryVal 0 (2 ^ 1) [zPrim] none)) 3 r =
      (.ok [zGate, zGate, zGate], { r with npos := r.npos + 6 }) := by
    intro r
    simp only [Rav.blocks]
    rw [PyM.bind_of_ok (h4 _)]
    simp only [PyM.bind_assoc', PyM.pure_bind']
    rw [PyM.bind_of_ok (h4 _)]
    rw [PyM.bind_of_ok (h4 _)]
    rfl
  rw [show ((3 : ℤ).toNat) = 3 from rfl, h5] at h3
  rw [← Except.ok.inj (Prod.ext_iff.mp h3).1] at h2
  exact ⟨R, w', undo, h, h1, h2⟩

/-- C44: no gates to choose from and nothing to do. -/
example (w : World) : ∃ w', generateRavSequence 0 2 [] false 0 (some 1) (1 / 2) none 0 w = (.ok ⟨w.seqs.length, []⟩, w') ∧
    w'.rng = w.rng := by
  obtain ⟨w', h, -, -, -, -, h', -⟩ := C44_nothing_to_do 0 (D := 2) (prims := []) (by simp) false (counts := []) (by simp)
    (t := 1) ⟨by norm_num, le_rfl⟩ (1 / 2) none (m := 0) (.inr rfl) w
  exact ⟨w', h, h'⟩

/-- C43: two layers of two gates, then at most five more layers. -/
example (rng : Rng) : ∃ R w', generateLayeredRavSequence 0 2 [(zPrim, 2)] 2 (some 1) (1 / 2) 5 (zClient rng).world =
      (.ok R, w') ∧ DistanceGuarantee 1 (some 1) (1 = (0 : ℝ) ∨ (5 : ℤ) = 0) 5 R w' ∧
    ∃ v k, w'.view R.sequence = some v ∧ v.entries.length = 4 + 2 * k := by
  obtain ⟨R, w', h⟩ := C43_layered_never_raises (zSession 0 rng (1 / 2) 1) (zClient_entries rng) (n := 1)
    zCounts_valid (by intro pc hpc _; obtain rfl := List.mem_singleton.mp hpc; simp [zPrim]) (L := 2)
    (by norm_num) (t := 1) ⟨by norm_num, le_rfl⟩ (p := 1 / 2) ⟨by norm_num, by norm_num⟩ 5
  obtain ⟨-, pre, compiled, undo, h1, h2, -, h3, -⟩ := C43_layered_shape (zSession 0 rng (1 / 2) 1)
    (by intro pc hpc; obtain rfl := List.mem_singleton.mp hpc; norm_num) h
  refine ⟨R, w', h, C43_layered_distance (zSession 0 rng (1 / 2) 1) (zClient_entries rng) zCounts_valid
    (by norm_num) ⟨by norm_num, le_rfl⟩ h, _, compiled.length, h1, ?_⟩
  simp only [List.map_cons, List.map_nil, List.sum_cons, List.sum_nil] at h3
  simp only
  omega

/-- C43: an XEB sequence of three layers. -/
example (rng : Rng) : ∃ R w', generateXebSequence 0 2 [(zPrim, 2)] 3 (zClient rng).world = (.ok R, w') ∧
    ∃ v, w'.view R.sequence = some v ∧ v.entries.length = 6 := by
  obtain ⟨R, w', h⟩ := C43_layered_never_raises (zSession 0 rng (1 / 2) 1) (zClient_entries rng) (n := 1)
    zCounts_valid (by intro pc hpc _; obtain rfl := List.mem_singleton.mp hpc; simp [zPrim]) (L := 3)
    (by norm_num) (t := 0) ⟨le_rfl, by norm_num⟩ (p := 0.5) ⟨by norm_num, by norm_num⟩ 0
  obtain ⟨-, layers, undo, h1, -, -, h2⟩ := C43_xeb (zSession 0 rng (1 / 2) 1)
    (by intro pc hpc; obtain rfl := List.mem_singleton.mp hpc; norm_num) h
  refine ⟨R, w', h, _, h1, ?_⟩
  simp only [List.map_cons, List.map_nil, List.sum_cons, List.sum_nil] at h2
  simp only
  omega

end Stoq
