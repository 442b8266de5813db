import Verif.Proofs.MeasurableGates
import Verif.Proofs.RepoHamiltonianSearch
import Verif.Props.Measurable
import Verif.Props.QdriftDistance

/-! # The tests that use random numbers: the sets of tapes for which they pass -/

namespace Stoq

open Matrix Tests MeasureTheory Rng Compiler

namespace Tests

variable {n : ℕ}

/-- The gates at the end of a walk. -/
noncomputable def walkGates (n : ℕ) (T : Matrix (Fin (2 ^ n)) (Fin (2 ^ n)) ℂ) (threshold : Option ℝ)
    (prop : List EntryVal → PyM Rng (List EntryVal)) (m : ℕ) : PyM Rng (List EntryVal) :=
  Metropolis.run n T threshold 0.1 (((2 : ℝ) ^ 2 ^ n) ^ 2) prop m ⟨[], 0⟩ >>= fun tr =>
    Pure.pure (tr.getLast?.getD ⟨[], 0⟩).gates

theorem walkGates_meas {prop : List EntryVal → PyM Rng (List EntryVal)} (hp : Metropolis.ProposesMeas n prop)
    (T : Matrix (Fin (2 ^ n)) (Fin (2 ^ n)) ℂ) (threshold : Option ℝ) (m : ℕ) {γ : Type} [MeasurableSpace γ] :
    Meas (gatesKey n) fun _ : γ => walkGates n T threshold prop m := by
  refine (Metropolis.run_meas hp threshold 0.1 (((2 : ℝ) ^ 2 ^ n) ^ 2) m (T := fun _ : γ => T) (st := fun _ => ⟨[], 0⟩) measurable_const
    measurable_const).bind fun tr htr => Meas.pure ?_
  exact Metropolis.measurable_last htr

/-- The overlap of the result. -/
theorem overlap_meas {m : PyM Rng (List EntryVal)} {γ : Type} [MeasurableSpace γ] (hm : Meas (gatesKey n) fun _ : γ => m)
    (T : Matrix (Fin (2 ^ n)) (Fin (2 ^ n)) ℂ) :
    Meas (fun x : ℝ => x) fun _ : γ => (m >>= fun g => Pure.pure (overlap T (circuit n g)) : PyM Rng ℝ) :=
  hm.bind fun _ hg => Meas.pure (measurable_overlap measurable_const (measurable_circuit hg))

theorem measurableSet_goodReals (threshold : Option ℝ) : MeasurableSet {x : ℝ | Metropolis.GoodEnough threshold (1 - x)} :=
  measurableSet_good threshold (measurable_const.sub measurable_id)

/-- Tests that compile: the tapes for which they pass are an event. -/
theorem finds_event {prims : List Primitive} (hv : ∀ q ∈ prims, q.Valid n) (hc : ∀ q ∈ prims, q.Continuous)
    (T : Matrix (Fin (2 ^ n)) (Fin (2 ^ n)) ℂ) (threshold : Option ℝ) (m : ℤ) :
    MeasurableSet {t | Finds n prims T threshold m (Rng.start t)
      fun gates => Metropolis.GoodEnough threshold (1 - overlap T (circuit n gates))} := by
  have hprog := overlap_meas (γ := Unit) (walkGates_meas (proposal_meas (probs := none) hv hc 0.5) T threshold m.toNat) T
  have hev := hprog.event (S := Set.univ ×ˢ {x : ℝ | Metropolis.GoodEnough threshold (1 - x)})
    (MeasurableSet.univ.prod (measurableSet_goodReals threshold))
  have hpre := (measurable_const (a := ())).prodMk (measurable_id' (α := Rng.Tape)) hev
  convert hpre using 1
  ext t
  simp only [Set.mem_ofPred_eq, Set.mem_preimage, Set.mem_prod, Set.mem_univ, true_and, Finds, walkGates]
  constructor
  · rintro ⟨tr, r', h1, h2⟩
    refine ⟨_, r', ?_, h2⟩
    rw [PyM.bind_eq_ok_iff]
    exact ⟨_, r', PyM.bind_eq_ok_iff.mpr ⟨tr, r', h1, rfl⟩, rfl⟩
  · rintro ⟨x, r', h1, h2⟩
    rw [PyM.bind_eq_ok_iff] at h1
    obtain ⟨g, r1, h1, h3⟩ := h1
    rw [PyM.bind_eq_ok_iff] at h1
    obtain ⟨tr, r2, h1, h4⟩ := h1
    cases h4; cases h3
    exact ⟨tr, _, h1, h2⟩

/-! ## test_stoq -/

/-- What one call of the test does. -/
theorem stoq_call {H : Hamiltonian} (hH : H.Of (xyTerms 2 (-3))) {b : Bool} {prims : List Primitive}
    (hp : H.getUnitaryPrimitives 0 (0.543 / 10) b = .ok prims) {U : Unitary} (e3 : H.getTimeEvolutionOperator 0 0.543 = .ok U)
    (hU : U.Exact (2 ^ 1)) {c : Client} {p : Plain} (hc : Mirror c [] p) :
    match walkGates 1 (U.matrix.toMatrix (2 ^ 1)) (some 0.9)
      (Metropolis.propose 0.5 (Metropolis.one (createRandomEntryVal 0 (2 ^ 1) prims none)) 1) 10000 c.world.rng with
    | (.error e, _) => ∃ c', returned 0 (.stoq H 0.543 (0.543 / 10) (some 0.9) b) c = (.error e, c')
    | (.ok g, r) => ∃ v c', returned 0 (.stoq H 0.543 (0.543 / 10) (some 0.9) b) c = (.ok p.seqs.length, c') ∧
        Mirror c' [] { p with seqs := p.seqs ++ [v] } ∧ v.dimension = 2 ^ 1 ∧ v.entries = g ∧ c'.world.rng = r := by
  obtain ⟨C, hrate, hf⟩ := stoq_walks hc.rel.2.wf hc.rel.2.exact le_rfl hH (by norm_num) (some 0.9) b hp e3 hU
  have hQ : (Task.stoq H 0.543 (0.543 / 10) (some 0.9) b).OnQubits := ⟨by norm_num, 1, _, le_rfl, hH⟩
  unfold FollowsWalk at hf
  rw [hrate] at hf
  rw [show ((10000 : ℕ) : ℤ).toNat = 10000 from rfl] at hf
  unfold walkGates
  rcases hx : Metropolis.run 1 (U.matrix.toMatrix (2 ^ 1)) (some 0.9) 0.1 (((2 : ℝ) ^ 2 ^ 1) ^ 2)
    (Metropolis.propose 0.5 (Metropolis.one (createRandomEntryVal 0 (2 ^ 1) prims none)) 1) 10000 ⟨[], 0⟩ c.world.rng with ⟨e | tr, r⟩
  · rw [hx] at hf
    rw [PyM.bind_of_error hx]
    have hrun : (Task.stoq H 0.543 (0.543 / 10) (some 0.9) b).run 0 c.world =
        (.error e, (H.compileStoqSequence 0 0.543 (0.543 / 10) (some 0.9) b c.world).2) :=
      PyM.bind_of_error (by rw [← hf.1])
    rcases returned_cases hc (T := .stoq H 0.543 (0.543 / 10) (some 0.9) b) trivial hQ with
      ⟨e', w, c', f1, f2⟩ | ⟨s, w, v', c', f1, -⟩
    · rw [hrun] at f1; cases f1
      exact ⟨c', f2⟩
    · rw [hrun] at f1; cases f1
  · rw [hx] at hf
    rw [PyM.bind_of_ok hx]
    obtain ⟨hr, R, hR, -, ⟨undo, hv⟩, -⟩ := hf
    have hrun : (Task.stoq H 0.543 (0.543 / 10) (some 0.9) b).run 0 c.world =
        (.ok R.sequence, (H.compileStoqSequence 0 0.543 (0.543 / 10) (some 0.9) b c.world).2) :=
      PyM.bind_eq_ok_iff.mpr ⟨R, _, by rw [← hR], rfl⟩
    rcases returned_cases hc (T := .stoq H 0.543 (0.543 / 10) (some 0.9) b) trivial hQ with
      ⟨e', w, c', f1, -⟩ | ⟨s, w, v', c', f1, f2, f3, f4⟩
    · rw [hrun] at f1; cases f1
    · rw [hrun] at f1; cases f1
      rw [hv] at f2; cases f2
      refine ⟨_, c', f3, f4, rfl, rfl, ?_⟩
      have ht : c.task 0 (.stoq H 0.543 (0.543 / 10) (some 0.9) b) = _ :=
        (Client.call_eq (m := (Task.stoq H 0.543 (0.543 / 10) (some 0.9) b).run 0)).1 _ _ hrun
      have : c' = (c.task 0 (.stoq H 0.543 (0.543 / 10) (some 0.9) b)).2 := by
        unfold returned at f3
        rw [ht] at f3 ⊢
        exact ((Prod.mk.inj f3).2).symm
      rw [this, ht]
      exact hr

/-- `test_stoq` passes if and only if both walks end with a good enough product. -/
theorem stoq_iff (fmt : ℕ → ℝ → String) {H : Hamiltonian} (h1 : xyHamiltonian 2 (-3) = .ok H)
    (hH : H.Of (xyTerms 2 (-3))) {prims : Bool → List Primitive}
    (hp : ∀ b, H.getUnitaryPrimitives 0 (0.543 / 10) b = .ok (prims b)) {U : Unitary}
    (e3 : H.getTimeEvolutionOperator 0 0.543 = .ok U) (hU : U.Exact (2 ^ 1)) (t : Rng.Tape) :
    (stoq 0 fmt (fresh t)).1 = .ok () ↔ ∃ x r', (do
      let g ← walkGates 1 (U.matrix.toMatrix (2 ^ 1)) (some 0.9)
        (Metropolis.propose 0.5 (Metropolis.one (createRandomEntryVal 0 (2 ^ 1) (prims false) none)) 1) 10000
      let g' ← walkGates 1 (U.matrix.toMatrix (2 ^ 1)) (some 0.9)
        (Metropolis.propose 0.5 (Metropolis.one (createRandomEntryVal 0 (2 ^ 1) (prims true) none)) 1) 10000
      Pure.pure (overlap (U.matrix.toMatrix (2 ^ 1)) (circuit 1 g), overlap (U.matrix.toMatrix (2 ^ 1)) (circuit 1 g')) :
        PyM Rng (ℝ × ℝ)) (Rng.start t) = (.ok x, r') ∧
      Metropolis.GoodEnough (some 0.9) (1 - x.1) ∧ Metropolis.GoodEnough (some 0.9) (1 - x.2) := by
  have m0 : Mirror (fresh t) [] ⟨[], []⟩ := .start _
  have k1 := stoq_call hH (hp false) e3 hU m0
  rw [show (fresh t).world.rng = Rng.start t from rfl] at k1
  unfold stoq
  rw [passes_lift h1, passes_lift e3]
  rcases hx : walkGates 1 (U.matrix.toMatrix (2 ^ 1)) (some 0.9)
    (Metropolis.propose 0.5 (Metropolis.one (createRandomEntryVal 0 (2 ^ 1) (prims false) none)) 1) 10000 (Rng.start t) with ⟨e | g, r⟩
  · rw [hx] at k1
    obtain ⟨c', k1⟩ := k1
    rw [PyM.bind_of_error k1, PyM.bind_of_error hx]
    simp
  rw [hx] at k1
  obtain ⟨v, c1, a1, a2, a3, rfl, a5⟩ := k1
  obtain ⟨c2, b1, b2, b3, b4⟩ := closeTo_mirror a2 (s := 0) (v := v) rfl a3 hU (some 0.9)
  rw [PyM.bind_of_ok a1, PyM.bind_of_ok hx]
  dsimp only [List.length_nil]
  by_cases hg : Metropolis.GoodEnough (some 0.9) (1 - overlap (U.matrix.toMatrix (2 ^ 1)) (circuit 1 v.entries))
  swap
  · rw [PyM.bind_of_error (b4 hg)]
    simp only [reduceCtorEq, false_iff]
    rintro ⟨x, r', h5, h6, -⟩
    rw [PyM.bind_eq_ok_iff] at h5
    obtain ⟨g', r1, -, h5⟩ := h5
    cases h5
    exact hg h6
  rw [PyM.bind_of_ok (b3 hg)]
  have k2 := stoq_call hH (hp true) e3 hU b1
  rw [b2, a5] at k2
  rcases hy : walkGates 1 (U.matrix.toMatrix (2 ^ 1)) (some 0.9)
    (Metropolis.propose 0.5 (Metropolis.one (createRandomEntryVal 0 (2 ^ 1) (prims true) none)) 1) 10000 r with ⟨e | g', r2⟩
  · rw [hy] at k2
    obtain ⟨c', k2⟩ := k2
    rw [PyM.bind_of_error k2, PyM.bind_of_error hy]
    simp
  rw [hy] at k2
  obtain ⟨v', c3, d1, d2, d3, rfl, -⟩ := k2
  obtain ⟨c4, f1, -, f3, f4⟩ := closeTo_mirror d2 (s := 1) (v := v') rfl d3 hU (some 0.9)
  rw [PyM.bind_of_ok d1, PyM.bind_of_ok hy]
  change ((assertCloseTo 0 U 1 (some 0.9) >>= fun _ => assertText (Seq.getQasm 0 fmt) 1) c3).1 = _ ↔ _
  by_cases hg' : Metropolis.GoodEnough (some 0.9) (1 - overlap (U.matrix.toMatrix (2 ^ 1)) (circuit 1 v'.entries))
  · obtain ⟨_, c5, q, -, -⟩ := assertQasm_exact (p := _) (s := 1) fmt (v := v') rfl c4 f1.rel.2
    rw [PyM.bind_of_ok (f3 hg'), q]
    exact iff_of_true rfl ⟨_, _, rfl, hg, hg'⟩
  · rw [PyM.bind_of_error (f4 hg')]
    simp only [reduceCtorEq, false_iff]
    rintro ⟨x, r', h5, -, h6⟩
    cases h5
    exact hg' h6

theorem stoq_event (fmt : ℕ → ℝ → String) : MeasurableSet {t | (stoq 0 fmt (fresh t)).1 = .ok ()} := by
  obtain ⟨H, h1, -, hH⟩ := xy_23
  obtain ⟨g1, g2⟩ := hH.total
  obtain ⟨U, e3, hU, -⟩ := C29_evolution (by positivity) g1 g2 0.543 ""
  choose prims hp hval _ using fun b => C50_primitives (n := 1) le_rfl hH (m := 0.543 / 10) (by norm_num) b
  simp only [stoq_iff fmt h1 hH hp e3 hU]
  have hw : ∀ b {γ : Type} [MeasurableSpace γ], Meas (gatesKey 1) fun _ : γ => walkGates 1 (U.matrix.toMatrix (2 ^ 1)) (some 0.9)
      (Metropolis.propose 0.5 (Metropolis.one (createRandomEntryVal 0 (2 ^ 1) (prims b) none)) 1) 10000 := fun b _ _ =>
    walkGates_meas (proposal_meas (probs := none) (hval b) (stoq_continuous hH (hp b)) 0.5) _ _ _
  have hprog : Meas (fun x : ℝ × ℝ => x) fun _ : Unit => (do
      let g ← walkGates 1 (U.matrix.toMatrix (2 ^ 1)) (some 0.9)
        (Metropolis.propose 0.5 (Metropolis.one (createRandomEntryVal 0 (2 ^ 1) (prims false) none)) 1) 10000
      let g' ← walkGates 1 (U.matrix.toMatrix (2 ^ 1)) (some 0.9)
        (Metropolis.propose 0.5 (Metropolis.one (createRandomEntryVal 0 (2 ^ 1) (prims true) none)) 1) 10000
      Pure.pure (overlap (U.matrix.toMatrix (2 ^ 1)) (circuit 1 g), overlap (U.matrix.toMatrix (2 ^ 1)) (circuit 1 g')) :
        PyM Rng (ℝ × ℝ)) := by
    refine (hw false).bind fun g hg => (hw true).bind fun g' hg' => Meas.pure ?_
    exact (measurable_overlap measurable_const (measurable_circuit (hg.comp measurable_fst))).prodMk
      (measurable_overlap measurable_const (measurable_circuit hg'))
  have hev := hprog.event (S := Set.univ ×ˢ ({x : ℝ | Metropolis.GoodEnough (some 0.9) (1 - x)} ×ˢ
    {x : ℝ | Metropolis.GoodEnough (some 0.9) (1 - x)})) (MeasurableSet.univ.prod
      ((measurableSet_goodReals _).prod (measurableSet_goodReals _)))
  have hpre := (measurable_const (a := ())).prodMk (measurable_id' (α := Rng.Tape)) hev
  convert hpre using 1
  ext t
  simp only [Set.mem_ofPred_eq, Set.mem_preimage, Set.mem_prod, Set.mem_univ, true_and]

/-! ## test_qdrift -/

theorem qdrift_iff {H : Hamiltonian} (h1 : xyHamiltonian 10 (-1) = .ok H) (hd : H.dimension = 2)
    (hH : H.Of (xyTerms 10 (-1))) (t : Rng.Tape) {x : ℝ} (hx : QdriftDistance H 0.543 1000 (fresh t).world t.1 x) :
    (qdrift 0 (fresh t)).1 = .ok () ↔ Metropolis.GoodEnough (some 0.95) x := by
  obtain ⟨s, w', q, U, k1, k2, k3, k4⟩ := hx
  have k1' : H.getQdriftSequence 0 0.543 1000 (fresh t).world = (.ok s, w') := k1
  have hs : Session 0 (fresh t) [] := .start _
  have hex : ∀ x ∈ (fresh t).world.entries, x.toVal.Exact := by simp [fresh, Client.start]
  obtain ⟨-, es, drawn, hv, -, hlen, -⟩ := C49_qdrift_shape hs k1'
  obtain ⟨s', w2, es', drawn', f1, f2, -⟩ := C49_qdrift_gates hs hex le_rfl hH 0.543 1000 rfl
  rw [k1'] at f1; cases f1
  obtain ⟨q', q1, q2, q3⟩ := f2.product
  rw [k2] at q1; cases q1
  have hes : es' = es := by
    have := f2.view
    rw [hv] at this
    exact ((SeqView.mk.inj (Option.some.inj this)).2.2.1).symm
  subst hes
  have hU : U.Exact (2 ^ 1) := by
    obtain ⟨g1, g2⟩ := hH.total
    obtain ⟨U', j1, j2, -⟩ := C29_evolution (by positivity) g1 g2 0.543 ""
    rw [show UnitaryDefinitions.timeEvolution 0 H.totalMatrix 0.543 "" = H.getTimeEvolutionOperator 0 0.543 from rfl, k3] at j1
    cases j1
    exact j2
  unfold qdrift
  rw [passes_lift h1, passes_lift k3, returned_decides (Mirror.start _) (T := .qdrift H 0.543 1000) trivial ⟨1, _, le_rfl, hH⟩
    (b := fun _ => Metropolis.GoodEnough (some 0.95) x) ?_]
  · constructor
    · rintro ⟨_, _, _, -, -, h⟩; exact h
    · intro h; exact ⟨s, w', _, k1', hv, h⟩
  · intro s' w2 v k1 k2
    rw [show (Task.qdrift H 0.543 1000).run 0 = H.getQdriftSequence 0 0.543 1000 from rfl] at k1
    rw [show (Client.start (Rng.start t)).world = (fresh t).world from rfl, k1'] at k1; cases k1
    rw [hv] at k2; cases k2
    refine (assertLength_exact (p := ⟨[], [⟨H.dimension, false, es', none⟩]⟩) (s := 0) rfl (by exact hlen)).decides fun _ _ => ?_
    have := (assertCloseTo_checks (p := ⟨[], [⟨H.dimension, false, es', none⟩]⟩) (s := 0) (n := 1) rfl hd hU (some 0.95)).decides
    refine fun c hc => (this c hc).trans ?_
    rw [Unitary.distanceFrom_eq q2 hU, q3.2.2, overlap_comm] at k4
    rw [Except.ok.inj k4]

end Tests

end Stoq
