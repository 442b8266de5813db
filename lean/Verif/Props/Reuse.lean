import Verif.Props.CompileExamples
import Mathlib.Analysis.Complex.ExponentialBounds

/-!
# C37, and the failing part of C40: a compiler object remembers; negative counts break layers
-/

namespace Stoq

open World Compiler Matrix

/-- C37: a second `compile` (to any target, with any threshold and budget) starts from the annealing value the first
one, which took `k` steps, ended with: it is the walk that starts at `min (b + k · rate) cap`, not at 0. -/
theorem C37_second_compile_continues {c : Client} {Cs : List Compiler} (hs : Session 0 c Cs) {C : Compiler}
    (hC : C ∈ Cs) (hex : ∀ x ∈ c.world.entries, x.toVal.Exact) {n : ℕ} (hD : C.dimension = 2 ^ n)
    (hprims : ∀ p ∈ C.primitives, p.Valid n) {target : Unitary} (ht : target.Exact (2 ^ n))
    (hr : 0 ≤ C.annealingRate) {b : ℝ} (hb : c.world.annealing C = some b) {threshold : Option ℝ} {m : ℤ}
    {R : CompilerResult} {w1 : World} (h : C.compile 0 target threshold m c.world = (.ok R, w1))
    {target' : Unitary} (ht' : target'.Exact (2 ^ n)) (threshold' : Option ℝ) (m' : ℤ) :
    FollowsWalk n C target' threshold' m' (C.proposal 0)
      (min (b + R.costByStep.length * C.annealingRate) (((2 : ℝ) ^ C.dimension) ^ 2)) w1
      (C.compile 0 target' threshold' m' w1) := by
  have hT := compile_truthy h
  have hw : (c.call (C.compile 0 target threshold m) (fun _ _ => .handle) (fun _ => [])
      (fun R => [R.sequence])).2.world = w1 := by
    unfold Client.call; rw [h]
  have hs1 := Session.compile target threshold m hs hC
  have hex1 : ∀ x ∈ w1.entries, x.toVal.Exact := by
    have hx := (compile_post (target := target) (threshold := threshold) (m := m) hT hs.ok.1.wf hb).exact n rfl hD
      hex (fun v hv => generated_good hprims (by rw [← hD]; exact hv)) ht
    revert hx
    rw [h]
    rcases Metropolis.run n (target.matrix.toMatrix (2 ^ n)) threshold C.annealingRate C.maxBeta (C.proposal 0)
      m.toNat ⟨[], b⟩ c.world.rng with ⟨e | tr, r⟩
    · rintro ⟨h1, -⟩; cases h1
    · rintro ⟨-, -, -, o, -, -, h2⟩
      exact h2.es
  have hb1 := C36_compile_schedule hs hC hr hb h
  have := C31_compile_is_walk hs1 hC (by rw [hw]; exact hex1) hD hprims hT ht' (by rw [hw]; exact hb1) threshold' m'
  rwa [hw] at this

/-- The world after a used compiler and a new one have been made. -/
theorem z_first (rng : Rng) (hr : rng = quarter) :
    ∃ w, (zCompiler 1 1 0).compile 0 idTarget (some 2) 1 (zClient rng).world = (.ok ⟨0, [1]⟩, w) ∧
      w.annealing (zCompiler 1 1 0) = some 1 ∧ w.rng = { quarter with upos := 2, npos := 2 } ∧
      w.betas.length = 1 ∧ ∀ x ∈ w.entries, x.toVal.Exact := by
  subst hr
  have hs := zSession 0 quarter 1 1
  have hp := compile_post (target := idTarget) (threshold := some 2) (m := 1) (zCompiler_truthy 1 1 0) hs.ok.1.wf
    (b := 0) (show (zClient quarter).world.annealing (zCompiler 1 1 0) = some 0 from rfl)
  have hx := hp.exact 1 rfl rfl (zClient_entries quarter)
    (fun v hv => generated_good (zCompiler_prims 1 1 0) (n := 1) hv) idTarget_exact
  have hrun := z_run 0 le_rfl (by norm_num) 0 0 0
  have he : (1 / 4 : ℝ) < Real.exp (-(0 + 1)) := by
    have := Real.exp_one_lt_d9
    rw [zero_add, Real.exp_neg]
    rw [lt_inv_comm₀ (by norm_num) (Real.exp_pos 1)]
    norm_num; linarith
  rw [if_pos he] at hrun
  have hrun' : Metropolis.run 1 (idTarget.matrix.toMatrix (2 ^ 1)) (some 2) (zCompiler 1 1 0).annealingRate
      (zCompiler 1 1 0).maxBeta ((zCompiler 1 1 0).proposal 0) (1 : ℤ).toNat ⟨[], 0⟩ (zClient quarter).world.rng =
      (.ok [⟨[zGate], 0 + 1⟩], { quarter with upos := 2, npos := 2 }) := hrun
  rw [hrun'] at hx
  obtain ⟨h1, h2, h3, o, h4, h5, h6⟩ := hx
  refine ⟨_, Prod.ext ?_ rfl, by simpa [World.annealing] using h3, h2, hp.betaLen, h6.es⟩
  rw [h1, idTarget_matrix]
  simp [cost_z]
  rfl

/-- C37: reusing a compiler is not the same as making a new one.  There is a session with two compilers with equal
parameters, one used before and one new, such that from this same state, with the same random outcomes and the same
arguments, `compile` on the new one returns one gate and on the used one returns none. -/
theorem C37_reuse_differs : ∃ (c : Client) (C C' : Compiler), Session 0 c [C, C'] ∧
    C' = { C with self := C'.self } ∧
    (∃ R w v, C.compile 0 idTarget (some 2) 1 c.world = (.ok R, w) ∧ w.view R.sequence = some v ∧ v.entries = []) ∧
    (∃ R w v, C'.compile 0 idTarget (some 2) 1 c.world = (.ok R, w) ∧ w.view R.sequence = some v ∧
      v.entries = [zGate]) := by
  obtain ⟨w1, h1, h2, h3, h4, h5⟩ := z_first quarter rfl
  have hs := zSession 0 quarter 1 1
  have hs1 := Session.compile idTarget (some 2) 1 hs (C := zCompiler 1 1 0) (by simp)
  have hw : ((zClient quarter).call ((zCompiler 1 1 0).compile 0 idTarget (some 2) 1) (fun _ _ => .handle)
      (fun _ => []) (fun R => [R.sequence])).2.world = w1 := by
    unfold Client.call; rw [h1]
  have hs2 := Session.newCompiler 2 [zPrim] false none 1 1 hs1 (zCompiler_new 1 1 _)
  rw [hw, h4] at hs2
  refine ⟨_, zCompiler 1 1 0, zCompiler 1 1 1, hs2, rfl, ?_, ?_⟩
  · have hb : ({ w1 with betas := w1.betas ++ [0] } : World).annealing (zCompiler 1 1 0) = some 1 := by
      unfold World.annealing at h2 ⊢
      rw [List.getElem?_append_left (by rw [h4]; exact Nat.one_pos)]; exact h2
    have hp := compile_post (target := idTarget) (threshold := some 2) (m := 1) (zCompiler_truthy 1 1 0) hs2.ok.1.wf hb
    have hx := hp.exact 1 rfl rfl h5
      (fun v hv => generated_good (zCompiler_prims 1 1 0) (n := 1) hv) idTarget_exact
    have he : ¬ (1 / 4 : ℝ) < Real.exp (-(1 + 1)) := by
      have := Real.exp_one_gt_d9
      rw [Real.exp_neg, Real.exp_add, not_lt]
      rw [inv_le_comm₀ (by positivity) (by norm_num)]
      norm_num; nlinarith
    have hrun := z_run 1 (by norm_num) (by norm_num) 0 2 2
    rw [if_neg he] at hrun
    have hrun' : Metropolis.run 1 (idTarget.matrix.toMatrix (2 ^ 1)) (some 2) (zCompiler 1 1 0).annealingRate
        (zCompiler 1 1 0).maxBeta ((zCompiler 1 1 0).proposal 0) (1 : ℤ).toNat ⟨[], 1⟩
        ({ w1 with betas := w1.betas ++ [0] } : World).rng =
        (.ok [⟨[], 1 + 1⟩], { quarter with upos := 4, npos := 4 }) := by
      show Metropolis.run 1 _ _ _ _ _ _ _ w1.rng = _
      rw [h3]; exact hrun
    rw [hrun'] at hx
    obtain ⟨g1, -, -, o, g2, g3, -⟩ := hx
    exact ⟨_, _, _, Prod.ext g1 rfl, view_eq_some.mpr ⟨o, g2, rfl⟩, by simpa [viewOf] using g3⟩
  · have hb : ({ w1 with betas := w1.betas ++ [0] } : World).annealing (zCompiler 1 1 1) = some 0 := by
      unfold World.annealing
      simp [zCompiler, h4]
    have hp := compile_post (target := idTarget) (threshold := some 2) (m := 1) (zCompiler_truthy 1 1 1) hs2.ok.1.wf hb
    have hx := hp.exact 1 rfl rfl h5
      (fun v hv => generated_good (zCompiler_prims 1 1 1) (n := 1) hv) idTarget_exact
    have he : (1 / 4 : ℝ) < Real.exp (-(0 + 1)) := by
      have := Real.exp_one_lt_d9
      rw [zero_add, Real.exp_neg]
      rw [lt_inv_comm₀ (by norm_num) (Real.exp_pos 1)]
      norm_num; linarith
    have hrun := z_run 0 le_rfl (by norm_num) 1 2 2
    rw [if_pos he] at hrun
    have hrun' : Metropolis.run 1 (idTarget.matrix.toMatrix (2 ^ 1)) (some 2) (zCompiler 1 1 1).annealingRate
        (zCompiler 1 1 1).maxBeta ((zCompiler 1 1 1).proposal 0) (1 : ℤ).toNat ⟨[], 0⟩
        ({ w1 with betas := w1.betas ++ [0] } : World).rng =
        (.ok [⟨[zGate], 0 + 1⟩], { quarter with upos := 4, npos := 4 }) := by
      show Metropolis.run 1 _ _ _ _ _ _ _ w1.rng = _
      rw [h3]; exact hrun
    rw [hrun'] at hx
    obtain ⟨g1, -, -, o, g2, g3, -⟩ := hx
    exact ⟨_, _, _, Prod.ext g1 rfl, view_eq_some.mpr ⟨o, g2, rfl⟩, by simpa [viewOf] using g3⟩

/-! ## C40 with a negative count -/

/-- Random outcomes: add at the front, accept, remove at the front, accept. -/
noncomputable def addRemoveTape (i : ℕ) : Set.Ico (0 : ℝ) 1 :=
  if i = 2 then ⟨3 / 5, by norm_num, by norm_num⟩ else ⟨0, by norm_num, by norm_num⟩

/-- These outcomes, with some of them used up. -/
noncomputable def addRemove (u x : ℕ) : Rng := ⟨addRemoveTape, fun _ => 0, u, x⟩

/-- A count of 2 for one item and of -1 for another: a layer has two gates, but "as many gates as a layer has" is
taken to be one. -/
noncomputable def badCounts : List (Primitive × ℤ) := [(zPrim, 2), (zPrim, -1)]

theorem bad_layer (D x u : ℕ) :
    Metropolis.layer (fun p => createRandomEntryVal 0 D [p] none) badCounts (addRemove u x) =
      (.ok [zGate, zGate], (addRemove u (x + 5))) := by
  have h2 : Metropolis.many (createRandomEntryVal 0 D [zPrim] none) (2 : ℤ).toNat
      (addRemove u x) =
      (.ok [zGate, zGate], (addRemove u (x + 4))) := by
    show Metropolis.many _ 2 _ = _
    have hg : ∀ y, createRandomEntryVal 0 D [zPrim] none (addRemove u y) = (.ok zGate, addRemove u (y + 2)) :=
      fun y => zPrim_gen 0 D _
    rw [Metropolis.many, PyM.bind_of_ok (hg x), Metropolis.many]
    have : (do
        let v ← createRandomEntryVal 0 D [zPrim] none
        let vs ← Metropolis.many (createRandomEntryVal 0 D [zPrim] none) 0
        return v :: vs : PyM Rng (List EntryVal)) (addRemove u (x + 2)) =
        (.ok [zGate], (addRemove u (x + 4))) := by
      rw [PyM.bind_of_ok (hg _)]; rfl
    rw [PyM.bind_of_ok this]; rfl
  have h3 : Metropolis.block (fun p => createRandomEntryVal 0 D [p] none) badCounts
      (addRemove u x) =
      (.ok [zGate, zGate], (addRemove u (x + 4))) := by
    unfold badCounts
    rw [Metropolis.block, PyM.bind_of_ok h2]
    rfl
  unfold Metropolis.layer
  rw [PyM.bind_of_ok h3]
  rfl

theorem bad_add (C : Compiler) (hp : C.appendProbability = 1 / 2) (hD : C.dimension = 2) :
    C.layeredProposal 0 badCounts [] (addRemove 0 0) =
      (.ok [zGate, zGate], (addRemove 1 5)) := by
  unfold Compiler.layeredProposal Metropolis.propose
  rw [hp, hD, raiseUnless_of (by norm_num)]
  have e : (PyM.lift (Except.ok ()) : PyM Rng Unit) (addRemove 0 0) = (.ok (), (addRemove 0 0)) := rfl
  have e2 : Rng.randomSample (addRemove 0 0) = (.ok (addRemoveTape 0 : ℝ), addRemove 1 0) := rfl
  rw [PyM.bind_of_ok e, PyM.bind_of_ok e2]
  have h0 : (addRemoveTape 0 : ℝ) = 0 := by simp [addRemoveTape]
  rw [h0, if_pos (by norm_num), PyM.bind_of_ok (bad_layer 2 0 1)]
  rfl

theorem bad_remove (C : Compiler) (hp : C.appendProbability = 1 / 2) :
    C.layeredProposal 0 badCounts [zGate, zGate] (addRemove 2 5) =
      (.ok [zGate], addRemove 3 5) := by
  unfold Compiler.layeredProposal Metropolis.propose
  rw [hp, raiseUnless_of (by norm_num)]
  have e : (PyM.lift (Except.ok ()) : PyM Rng Unit) (addRemove 2 5) =
    (.ok (), (addRemove 2 5)) := rfl
  have e2 : Rng.randomSample (addRemove 2 5) = (.ok (addRemoveTape 2 : ℝ), addRemove 3 5) := rfl
  rw [PyM.bind_of_ok e, PyM.bind_of_ok e2]
  have h0 : (addRemoveTape 2 : ℝ) = 3 / 5 := by simp [addRemoveTape]
  simp only [h0]
  rw [if_neg (by norm_num), if_neg (by norm_num), if_pos (by norm_num)]
  simp [badCounts]

theorem bad_run (C : Compiler) (hp : C.appendProbability = 1 / 2) (hD : C.dimension = 2) (hr : C.annealingRate = 0) :
    Metropolis.run 1 (idTarget.matrix.toMatrix (2 ^ 1)) (some 2) C.annealingRate (((2 : ℝ) ^ 2) ^ 2)
      (C.layeredProposal 0 badCounts) 2 ⟨[], 0⟩ (addRemove 0 0) =
    (.ok [⟨[zGate, zGate], 0⟩, ⟨[zGate], 0⟩], (addRemove 4 5)) := by
  have hno : ∀ g, (∀ v ∈ g, v = zGate) →
      ¬ Metropolis.GoodEnough (some 2) (Metropolis.cost 1 (idTarget.matrix.toMatrix (2 ^ 1)) g) := by
    intro g hg
    have hz : zGate.WF := ⟨by simp [zGate], by simp [zGate], rfl⟩
    have hc : circuit 1 g ∈ specialUnitaryGroup (Fin (2 ^ 1)) ℂ := by
      refine circuit_mem_su fun e he => ?_
      rw [hg e he]
      exact ⟨hz, by simp [EntryVal.Fits, zGate], tinyPhase_exact _⟩
    have := overlap_le_one idTarget_exact.2.2.2.1 hc.1
    simp only [Metropolis.GoodEnough, Metropolis.cost]
    linarith
  have hstep : ∀ (g new : List EntryVal) (u x y : ℕ),
      C.layeredProposal 0 badCounts g (addRemove u x) = (.ok new, addRemove (u + 1) y) →
      Metropolis.step 1 (idTarget.matrix.toMatrix (2 ^ 1)) 0 (((2 : ℝ) ^ 2) ^ 2) (C.layeredProposal 0 badCounts)
        ⟨g, 0⟩ (addRemove u x) = (.ok ⟨new, 0⟩, addRemove (u + 2) y) := by
    intro g new u x y h
    unfold Metropolis.step
    have e2 : Rng.randomSample (addRemove (u + 1) y) = (.ok (addRemoveTape (u + 1) : ℝ), addRemove (u + 2) y) := rfl
    rw [PyM.bind_of_ok h, PyM.bind_of_ok e2]
    have hβ : min ((0 : ℝ) + 0) (((2 : ℝ) ^ 2) ^ 2) = 0 := by norm_num
    simp only [hβ]
    rw [if_pos (by simpa using (addRemoveTape (u + 1)).2.2)]
    rfl
  rw [hr, Metropolis.run, if_neg (hno [] (by simp)), PyM.bind_of_ok (hstep _ _ 0 0 5 (bad_add C hp hD)),
    Metropolis.run, if_neg (hno _ (by simp))]
  have h3 : (do
      let st' ← Metropolis.step 1 (idTarget.matrix.toMatrix (2 ^ 1)) 0 (((2 : ℝ) ^ 2) ^ 2)
        (C.layeredProposal 0 badCounts) ⟨[zGate, zGate], 0⟩
      let rest ← Metropolis.run 1 (idTarget.matrix.toMatrix (2 ^ 1)) (some 2) 0 (((2 : ℝ) ^ 2) ^ 2)
        (C.layeredProposal 0 badCounts) 0 st'
      return st' :: rest : PyM Rng (List Metropolis.State)) (addRemove 2 5) =
      (.ok [⟨[zGate], 0⟩], addRemove 4 5) := by
    rw [PyM.bind_of_ok (hstep _ _ 2 5 5 (bad_remove C hp))]
    rfl
  rw [PyM.bind_of_ok h3]
  rfl

/-- C40 fails with negative counts: a run of `compile_layered` with counts 2 and -1 (layers of two gates) ends with a
single gate, which is not a concatenation of layers. -/
theorem C40_negative_counts_break_layers : ∃ (c : Client) (C : Compiler) (R : CompilerResult) (w : World)
    (v : SeqView), Session 0 c [C] ∧ C.compileLayered 0 idTarget badCounts (some 2) 2 c.world = (.ok R, w) ∧
      w.view R.sequence = some v ∧ v.entries = [zGate] ∧
      ¬ ∃ layers : List (List EntryVal), v.entries = layers.flatten ∧
        ∀ l ∈ layers, IsLayer 0 (intLog2 C.dimension) badCounts l := by
  have hs := zSession 0 (addRemove 0 0) (1 / 2) 0
  have hp := compileLayered_post (C := zCompiler (1 / 2) 0 0) (counts := badCounts) (target := idTarget)
    (threshold := some 2) (m := 2) hs.ok.1.wf (b := 0)
    (show (zClient (addRemove 0 0)).world.annealing (zCompiler (1 / 2) 0 0) = some 0 from rfl)
  have hx := hp.exact 1 rfl rfl (zClient_entries (addRemove 0 0))
    (fun v hv => generatedLayer_good (n := 1) (by
      intro pc hpc
      simp only [badCounts, List.mem_cons, List.not_mem_nil, or_false] at hpc
      rcases hpc with rfl | rfl <;> exact zPrim_valid le_rfl) hv) idTarget_exact
  have hrun : Metropolis.run 1 (idTarget.matrix.toMatrix (2 ^ 1)) (some 2) (zCompiler (1 / 2) 0 0).annealingRate
      (zCompiler (1 / 2) 0 0).maxBeta ((zCompiler (1 / 2) 0 0).layeredProposal 0 badCounts) (2 : ℤ).toNat ⟨[], 0⟩
      (zClient (addRemove 0 0)).world.rng = _ := bad_run (zCompiler (1 / 2) 0 0) rfl rfl rfl
  rw [hrun] at hx
  obtain ⟨g1, -, -, o, g2, g3, -⟩ := hx
  have hv : (viewOf ((zCompiler (1 / 2) 0 0).compileLayered 0 idTarget badCounts (some 2) 2
      (zClient (addRemove 0 0)).world).2.entries o).entries = [zGate] := by simpa [viewOf] using g3
  refine ⟨_, _, _, _, _, hs, Prod.ext g1 rfl, view_eq_some.mpr ⟨o, g2, rfl⟩, hv, ?_⟩
  rw [hv]
  rintro ⟨layers, h1, h2⟩
  have hlen := congrArg List.length h1
  cases layers with
  | nil => simp at hlen
  | cons l ls =>
    have := (h2 l (by simp)).length
    simp only [badCounts, List.map_cons, List.map_nil, List.sum_cons, List.sum_nil] at this
    simp only [List.flatten_cons, List.length_append, List.length_cons, List.length_nil] at hlen
    norm_num at this
    omega

end Stoq
