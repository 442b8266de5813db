import Verif.Proofs.TermSubsets
import Verif.Spec.HamiltonianRav

/-! # Outcomes of the functions of a Hamiltonian that make sequences -/

namespace Stoq

open World Matrix

theorem ideal_post {τ : Arith} (H : Hamiltonian) (t : ℝ) (N : ℤ) {w : World} (hw : w.WF τ) :
    Wp (H.getIdealSequence τ t N) (fun res w' => Safe τ w w' ∧ (N = 0 → res = .error .zeroDivision ∧ w' = w) ∧
      (N ≠ 0 → (∀ e, H.getTimeEvolutionOperator τ (t / N) = .error e → res = .error e ∧ w' = w) ∧
        ∀ u, H.getTimeEvolutionOperator τ (t / N) = .ok u →
          BuildPost τ (EvolveEntry τ H.getQubitCount (fun h t' s => h = H.totalMatrix ∧ t' = t / N ∧ s = ""))
            (H.idealVals u N.toNat) H.dimension w res w')) w := by
  unfold Hamiltonian.getIdealSequence
  by_cases hN : N = 0
  · rw [raiseUnless_of_not (by simpa using hN)]
    exact Wp.of_eq (r := .error .zeroDivision) (w' := w) rfl ⟨.refl hw, fun _ => ⟨rfl, rfl⟩, fun h => absurd hN h⟩
  · rw [raiseUnless_of hN]
    refine Wp.lift_bind (fun _ _ => ?_) fun e he => (by cases he)
    dsimp only
    rcases hu : H.getTimeEvolutionOperator τ (t / N) with e | u
    · exact Wp.of_eq (r := .error e) (w' := w) rfl ⟨.refl hw, fun h => absurd h hN,
        fun _ => ⟨fun e' h => ⟨by rw [Except.error.inj h], rfl⟩, fun u h => (by cases h)⟩⟩
    · refine Wp.lift_bind (fun u' hu' => ?_) fun e he => (by cases he)
      cases hu'
      refine (build_wp (Hamiltonian.idealEntries_mk
        (P := fun h t' s => h = H.totalMatrix ∧ t' = t / N ∧ s = "") ⟨rfl, rfl, rfl⟩ hu N.toNat) H.dimension hw).mono ?_
      intro res w' hp
      exact ⟨hp.safe, fun h => absurd h hN, fun _ => ⟨fun e h => (by cases h), fun u' h => (by cases h; exact hp)⟩⟩

theorem trotter_post {τ : Arith} (H : Hamiltonian) (t : ℝ) (N : ℤ) (randomize : Bool) {w : World} (hw : w.WF τ) :
    Wp (H.getTrotterSequence τ t N randomize) (fun res w' => Safe τ w w' ∧
      (N = 0 → res = .error .zeroDivision ∧ w' = w) ∧
      (N ≠ 0 → BuildPost τ (EvolveEntry τ H.getQubitCount (H.TrotterP (t / N)))
        (H.trotterVals τ (t / N) randomize N.toNat (List.range H.terms.length)) H.dimension w res w')) w := by
  unfold Hamiltonian.getTrotterSequence
  by_cases hN : N = 0
  · rw [raiseUnless_of_not (by simpa using hN)]
    exact Wp.of_eq (r := .error .zeroDivision) (w' := w) rfl ⟨.refl hw, fun _ => ⟨rfl, rfl⟩, fun h => absurd hN h⟩
  · rw [raiseUnless_of hN]
    refine Wp.lift_bind (fun _ _ => ?_) fun e he => (by cases he)
    dsimp only
    refine (build_wp (Hamiltonian.trotterLoop_mk (t / N) randomize N.toNat _) H.dimension hw).mono ?_
    intro res w' hp
    exact ⟨hp.safe, fun h => absurd h hN, fun _ => hp⟩

theorem qdrift_post {τ : Arith} (H : Hamiltonian) (t : ℝ) (N : ℤ) {w : World} (hw : w.WF τ) :
    Wp (H.getQdriftSequence τ t N) (BuildPost τ
      (EvolveEntry τ H.getQubitCount (H.QdriftP (H.sumCoefficients * t / N)))
      (H.qdriftVals τ (H.sumCoefficients * t / N) N.toNat) H.dimension w) w := by
  unfold Hamiltonian.getQdriftSequence
  exact build_wp (Hamiltonian.qdriftLoop_mk _ N.toNat) H.dimension hw

/-! ## Compilation -/

theorem stoqTarget_ok {τ : Arith} {H : Hamiltonian} {m : ℝ} {b : Bool} {prims : List Primitive}
    (h : H.getUnitaryPrimitives τ m b = .ok prims) (target : Unitary) (threshold : Option ℝ) :
    H.compileStoqForTarget τ target m threshold b =
      newCompile τ H.dimension prims false none 0.5 threshold 10000 target := by
  unfold Hamiltonian.compileStoqForTarget
  rw [h]
  rfl

theorem stoqTarget_error {τ : Arith} {H : Hamiltonian} {m : ℝ} {b : Bool} {e : PyErr}
    (h : H.getUnitaryPrimitives τ m b = .error e) (target : Unitary) (threshold : Option ℝ) (w : World) :
    H.compileStoqForTarget τ target m threshold b w = (.error e, w) := by
  unfold Hamiltonian.compileStoqForTarget
  rw [h]
  rfl

theorem stoq_ok {τ : Arith} {H : Hamiltonian} {t m : ℝ} {b : Bool} {prims : List Primitive} {target : Unitary}
    (ht : H.getTimeEvolutionOperator τ t = .ok target) (h : H.getUnitaryPrimitives τ m b = .ok prims)
    (threshold : Option ℝ) (w : World) : H.compileStoqSequence τ t m threshold b w =
      newCompile τ H.dimension prims false none 0.5 threshold 10000 target w := by
  unfold Hamiltonian.compileStoqSequence
  simp only [ht, stoqTarget_ok h]
  rfl

/-- A compilation that makes its own compiler keeps everything and returns a new sequence. -/
theorem CompOk.safe {τ : Arith} {G : EntryVal → Prop} {prop : List EntryVal → PyM Rng (List EntryVal)} {rate cap : ℝ}
    {D : ℕ} {threshold : Option ℝ} {m : ℤ} {T : Prop} {comp : Unitary → PyM World CompilerResult}
    (h : CompOk τ G prop rate cap D threshold m T comp) {w : World} (hw : w.WF τ) (target : Unitary) :
    Safe τ w (comp target w).2 ∧ ∀ R, (comp target w).1 = .ok R → w.seqs.length ≤ R.sequence ∧
      ∃ o, (comp target w).2.seqs[R.sequence]? = some o := by
  obtain ⟨h1, h2⟩ := h w target hw
  by_cases hT : T
  · obtain ⟨C, -, -, -, hC, hp⟩ := h1 hT
    constructor
    · refine ⟨hp.wf, hp.grow, fun t o ho => ⟨o, ?_, .refl o⟩, ?_⟩
      · rw [hp.others t (List.getElem?_eq_some_iff.mp ho).1]; exact ho
      · have hl := hp.betaLen
        simp only [List.length_append, List.length_singleton] at hl
        rw [List.prefix_iff_getElem?]
        intro i hi
        have h1 := hp.betaOther i (by rw [hC]; omega)
        simp only at h1
        rw [h1, List.getElem?_append_left hi, List.getElem?_eq_getElem hi]
    · intro R hR
      obtain ⟨g1, -, -, o, b', g2, -⟩ := hp.ok R hR
      simp only at g1
      exact ⟨by omega, o, g2⟩
  · obtain ⟨e, h | h⟩ := h2 hT
    · rw [h]
      exact ⟨.refl hw, fun R hR => (by cases hR)⟩
    · rw [h]
      exact ⟨⟨⟨hw.entries, hw.seqs⟩, .refl _, fun _ o ho => ⟨o, ho, .refl o⟩, List.prefix_append _ _⟩,
        fun R hR => (by cases hR)⟩

theorem stoq_safe {τ : Arith} {H : Hamiltonian} {t m : ℝ} {threshold : Option ℝ} {b : Bool} {w : World} (hw : w.WF τ) :
    Safe τ w (H.compileStoqSequence τ t m threshold b w).2 ∧
    ∀ R, (H.compileStoqSequence τ t m threshold b w).1 = .ok R → w.seqs.length ≤ R.sequence ∧
      ∃ o, (H.compileStoqSequence τ t m threshold b w).2.seqs[R.sequence]? = some o := by
  rcases ht : H.getTimeEvolutionOperator τ t with e | target
  · have : H.compileStoqSequence τ t m threshold b w = (.error e, w) := by
      unfold Hamiltonian.compileStoqSequence
      rw [ht]; rfl
    rw [this]
    exact ⟨.refl hw, fun R hR => (by cases hR)⟩
  rcases hp : H.getUnitaryPrimitives τ m b with e | prims
  · have : H.compileStoqSequence τ t m threshold b w = (.error e, w) := by
      unfold Hamiltonian.compileStoqSequence
      rw [ht]
      exact stoqTarget_error hp target threshold w
    rw [this]
    exact ⟨.refl hw, fun R hR => (by cases hR)⟩
  rw [stoq_ok ht hp]
  exact (newCompile_ok τ H.dimension prims false none 0.5 threshold 10000).safe hw target

/-! ## Verification -/

theorem signedTime_eq (m u v : ℝ) :
    (m * u) * (open Classical in if v < 0.8 then 1 else -1) = Rav.signedTime m u v := by
  unfold Rav.signedTime
  split_ifs <;> ring

/-- The gates of the random part. -/
def RavGate (τ : Arith) (prims : List Primitive) (qubits : List ℤ) (t : ℝ) (v : EntryVal) : Prop :=
  ∃ p ∈ prims, ∃ pu, p.unitary = .inr pu ∧ pu.asUnitary τ [t] = .ok v.unitary ∧
    EntryVal.new v.unitary qubits = .ok v

theorem evolveGate_ok {τ : Arith} {prims : List Primitive} {qubits : List ℤ} {t : ℝ} {r r' : Rng} {v : EntryVal}
    (h : Rav.evolveGate τ prims qubits t r = (.ok v, r')) : RavGate τ prims qubits t v := by
  unfold Rav.evolveGate at h
  rw [PyM.bind_eq_ok_iff] at h
  obtain ⟨i, r1, -, h⟩ := h
  rcases hi : prims[i]? with _ | p
  · rw [hi] at h; cases h
  rw [hi] at h
  simp only at h
  rcases hu : p.unitary with u | pu
  · rw [hu] at h; cases h
  rw [hu] at h
  simp only [PyM.bind_eq_ok_iff, PyM.lift_eq_ok_iff] at h
  obtain ⟨u, r2, ⟨h1, -⟩, h2, -⟩ := h
  obtain ⟨h3, h4⟩ := entryNew_ok h2
  exact ⟨p, List.mem_of_getElem? hi, pu, hu, h4 ▸ h1, h4 ▸ h2⟩

theorem ravGate_mk {τ : Arith} {prims : List Primitive} {qubits : List ℤ} (t : ℝ) :
    MkOk (fun v => ∃ t, RavGate τ prims qubits t v)
      (do let u ← Hamiltonian.ravUnitary τ prims t; let e ← Entry.new u qubits; return [e])
      (do let g ← Rav.evolveGate τ prims qubits t; return [g]) := by
  unfold Hamiltonian.ravUnitary Rav.evolveGate
  simp only [PyM.bind_assoc']
  refine MkOk.withRng fun i r r' hi => ?_
  rcases hi : prims[i]? with _ | p
  · exact MkOk.raise _
  simp only
  rcases hu : p.unitary with u | pu
  · exact MkOk.raise _
  simp only [PyM.bind_assoc']
  refine MkOk.lift fun u h => MkOk.new fun v hv => ?_
  obtain ⟨h1, h2⟩ := entryNew_ok hv
  exact ⟨h1, t, p, List.mem_of_getElem? hi, pu, hu, h2 ▸ h, h2 ▸ hv⟩

theorem ravLoop_fill {τ : Arith} {H : Hamiltonian} {prims : List Primitive} (m time : ℝ) (fuel : ℕ) (total : ℝ) :
    FillOk τ (fun v => ∃ t, RavGate τ prims H.applyTo t v)
      (fun s => H.ravLoop τ prims m time s fuel total)
      (Rav.evolutions (Rav.evolveGate τ prims H.applyTo) m time fuel total) := by
  induction fuel generalizing total with
  | zero =>
    unfold Rav.evolutions Hamiltonian.ravLoop
    by_cases h : total < time
    · simp only [if_pos h]; exact FillOk.raise _
    · simp only [if_neg h]; exact FillOk.nil
  | succ fuel ih =>
    unfold Rav.evolutions Hamiltonian.ravLoop
    by_cases h : total < time
    swap
    · simp only [if_neg h]; exact FillOk.nil
    simp only [if_pos h]
    unfold Hamiltonian.ravStep
    simp only [PyM.bind_assoc', signedTime_eq]
    refine FillOk.withRng fun u _ _ _ => FillOk.withRng fun v _ _ _ => ?_
    have := FillOk.block (ravGate_mk (τ := τ) (prims := prims) (qubits := H.applyTo) (Rav.signedTime m u v))
      (ih (total + |Rav.signedTime m u v|))
    simpa only [PyM.bind_assoc', PyM.pure_bind', Verification.appendAll, List.singleton_append] using this

theorem hrav_eq {τ : Arith} {H : Hamiltonian} {m : ℝ} {b : Bool} {prims : List Primitive}
    (h : H.getUnitaryPrimitives τ m b = .ok prims) (time : ℝ) (threshold : Option ℝ) (fuel : ℕ) :
    H.compileRavSequence τ time m threshold b fuel =
      ravWith τ H.dimension (fun s => H.ravLoop τ prims m time s fuel 0) False
        (newCompile τ H.dimension prims false none 0.5 threshold 10000) := by
  unfold Hamiltonian.compileRavSequence ravWith
  simp only [stoqTarget_ok h, h, if_false]
  rfl

theorem hrav_error {τ : Arith} {H : Hamiltonian} {m : ℝ} {b : Bool} {e : PyErr}
    (h : H.getUnitaryPrimitives τ m b = .error e) (time : ℝ) (threshold : Option ℝ) (fuel : ℕ) (w : World) :
    H.compileRavSequence τ time m threshold b fuel w = (.error e, w) := by
  unfold Hamiltonian.compileRavSequence
  rw [h]
  rfl

theorem hrav_post {τ : Arith} (H : Hamiltonian) (prims : List Primitive) (m time : ℝ)
    (threshold : Option ℝ) (fuel : ℕ) {w : World} (hw : w.WF τ) :
    Wp (ravWith τ H.dimension (fun s => H.ravLoop τ prims m time s fuel 0) False
        (newCompile τ H.dimension prims false none 0.5 threshold 10000))
      (RavPost τ (fun v => ∃ t, RavGate τ prims H.applyTo t v) (Generated τ H.dimension prims none)
        (Rav.evolutions (Rav.evolveGate τ prims H.applyTo) m time fuel 0)
        ((ravCompiler H.dimension prims false none 0.5 0).proposal τ) 0.1 (((2 : ℝ) ^ H.dimension) ^ 2) H.dimension
        threshold False 10000 (CompilerUsable H.dimension prims false) w) w :=
  ravWith_wp (ravLoop_fill m time fuel 0) (newCompile_ok τ H.dimension prims false none 0.5 threshold 10000) _ hw

theorem hrav_safe {τ : Arith} {H : Hamiltonian} {time m : ℝ} {threshold : Option ℝ} {b : Bool} {fuel : ℕ} {w : World}
    (hw : w.WF τ) : Safe τ w (H.compileRavSequence τ time m threshold b fuel w).2 ∧
    ∀ R, (H.compileRavSequence τ time m threshold b fuel w).1 = .ok R → w.seqs.length ≤ R.sequence ∧
      ∃ o, (H.compileRavSequence τ time m threshold b fuel w).2.seqs[R.sequence]? = some o := by
  rcases hp : H.getUnitaryPrimitives τ m b with e | prims
  · rw [hrav_error hp]
    exact ⟨.refl hw, fun R hR => (by cases hR)⟩
  · rw [hrav_eq hp]
    have hp := hrav_post H prims m time threshold fuel hw
    rw [Wp] at hp
    refine ⟨hp.safe, fun R hR => ?_⟩
    obtain ⟨pre, r1, o', -, h1, h2, -⟩ := hp.ok R hR
    exact ⟨h1, o', h2⟩

end Stoq
