import Verif.Proofs.Looks
import Verif.Props.Sequence

/-!
# Property C72: every program, whether or not it inverts sequences with shared gates

C14 describes programs that do not call `inverse()` on a sequence in which an entry object occurs twice, and says so in
terms of the references of the modelled heap.  Here the description covers all programs, and which object is where is
part of it (Verif.Spec.Objects).
-/

namespace Stoq

open Matrix

/-- Every program gets the results (values and exceptions) of the same program over numbered gate objects, and every
sequence and entry ends up with the specified content. -/
theorem C72_all_programs (rng : Rng) (ops : List Op) (hq : ∀ op ∈ ops, op.OnQubits) :
    List.Forall₂ SameResult ((Client.start rng).run 0 ops).1 (Objects.start.run ops).1 ∧
    (∀ i, ((Client.start rng).run 0 ops).2.seq i = (Objects.start.run ops).2.seqs[i]?.map ObjSeq.view) ∧
    (∀ i, ((Client.start rng).run 0 ops).2.entry i = (Objects.start.run ops).2.entries[i]?.map Prod.snd) := by
  obtain ⟨h1, R, h2⟩ := run_objects (objects_start rng) ops hq
  exact ⟨h1, h2.seq_eq, h2.entry_eq⟩

/-- Calls that only look can be left out of a program: the other calls have exactly the same results (values and
exceptions), and all sequences and entries the same content. -/
theorem C72_looking_is_free (rng : Rng) (ops : List Op) (hq : ∀ op ∈ ops, op.OnQubits) :
    ((((Client.start rng).run 0 ops).1.zip ops).filter fun r => !r.2.looks).map Prod.fst =
      ((Client.start rng).run 0 (ops.filter fun op => !op.looks)).1 ∧
    (∀ i, ((Client.start rng).run 0 ops).2.seq i = ((Client.start rng).run 0 (ops.filter fun op => !op.looks)).2.seq i) ∧
    (∀ i, ((Client.start rng).run 0 ops).2.entry i = ((Client.start rng).run 0 (ops.filter fun op => !op.looks)).2.entry i) := by
  obtain ⟨h1, x', R1, R2, h2, h3⟩ := run_looks (objects_start rng) (objects_start rng) ops hq
  refine ⟨h1, fun i => ?_, fun i => ?_⟩
  · rw [h2.seq_eq, h3.seq_eq]
  · rw [h2.entry_eq, h3.entry_eq]

/-- Two places hold the same gate object exactly if they hold the same number. -/
theorem C72_identity (rng : Rng) (ops : List Op) (hq : ∀ op ∈ ops, op.OnQubits) (p q : Place) :
    (((Client.start rng).run 0 ops).2.at p = none ↔ (Objects.start.run ops).2.at p = none) ∧
    (((Client.start rng).run 0 ops).2.at p = ((Client.start rng).run 0 ops).2.at q ↔
      (Objects.start.run ops).2.at p = (Objects.start.run ops).2.at q) := by
  obtain ⟨-, R, h⟩ := run_objects (objects_start rng) ops hq
  generalize ((Client.start rng).run 0 ops).2 = c at *
  generalize (Objects.start.run ops).2 = x at *
  have ids : ∀ (rs : List ℕ) (l : List Tagged) (k : ℕ), List.Forall₂ R rs (l.map Prod.fst) →
      (rs[k]? = none ∧ l[k]?.map Prod.fst = none) ∨
        ∃ a b, rs[k]? = some a ∧ l[k]?.map Prod.fst = some b ∧ R a b := by
    intro rs l k hl
    have := forall₂_getElem? hl k
    rwa [List.getElem?_map] at this
  have key : ∀ p : Place, (c.at p = none ∧ x.at p = none) ∨ ∃ a b, c.at p = some a ∧ x.at p = some b ∧ R a b := by
    rintro (i | ⟨s, k⟩ | ⟨s, k⟩)
    · rcases forall₂_getElem? h.ents i with ⟨h3, h4⟩ | ⟨r, e, h3, h4, hR, -⟩
      · left; simp [Client.at, Objects.at, h3, h4]
      · right; exact ⟨r, e.1, h3, by simp [Objects.at, h4], hR⟩
    · rcases forall₂_getElem? h.seqs s with ⟨h3, h4⟩ | ⟨r, v, h3, h4, o, ho, hv⟩
      · left; simp [Client.at, Objects.at, h3, h4]
      · simp only [Client.at, Objects.at, h3, h4, Option.bind_some, ho]
        exact ids _ _ k hv.ids
    · rcases forall₂_getElem? h.seqs s with ⟨h3, h4⟩ | ⟨r, v, h3, h4, o, ho, hv⟩
      · left; simp [Client.at, Objects.at, h3, h4]
      · simp only [Client.at, Objects.at, h3, h4, Option.bind_some, ho]
        rcases hp : o.previousEntries with _ | ps
        · left
          have := hv.view
          unfold viewOf ObjSeq.view at this
          injection this with _ _ _ h5
          rw [hp] at h5
          have : v.undo = none := by simpa using h5.symm
          simp [this]
        · obtain ⟨u, h5, h6⟩ := hv.undo ps hp
          simp only [h5, Option.bind_some]
          exact ids _ _ k h6
  constructor
  · rcases key p with ⟨h1, h2⟩ | ⟨a, b, h1, h2, -⟩
    · simp [h1, h2]
    · simp [h1, h2]
  · rcases key p with ⟨h1, h2⟩ | ⟨a, b, h1, h2, hR⟩ <;> rcases key q with ⟨h1', h2'⟩ | ⟨a', b', h1', h2', hR'⟩
    · simp [h1, h2, h1', h2']
    · simp [h1, h2, h1', h2']
    · simp [h1, h2, h1', h2']
    · rw [h1, h2, h1', h2', Option.some.injEq, Option.some.injEq]
      constructor
      · rintro rfl; exact h.names.fn _ _ _ hR hR'
      · rintro rfl; exact h.names.inj _ _ _ hR hR'

/-- The side condition of C14 can be read off the program. -/
theorem C72_no_sharing (rng : Rng) (ops : List Op) (hq : ∀ op ∈ ops, op.OnQubits) :
    (Client.start rng).NoSharedInverse 0 ops ↔ Objects.start.NoSharedInverse ops := by
  have h := objects_start rng
  generalize Client.start rng = c at *
  generalize Objects.start = x at *
  generalize (fun _ _ => False : ℕ → ℕ → Prop) = R at *
  induction ops generalizing c x R with
  | nil => exact Iff.rfl
  | cons op ops ih =>
    obtain ⟨-, R', h2⟩ := step_objects h (hq op (by simp))
    have h3 := ih (fun y hy => hq y (by simp [hy])) _ _ _ h2
    unfold Client.NoSharedInverse Objects.NoSharedInverse
    refine and_congr ?_ h3
    cases op with
    | inverse s =>
      rcases forall₂_getElem? h.seqs s with ⟨h4, h5⟩ | ⟨r, v, h4, h5, o, ho, hv⟩
      · constructor
        · rintro - s' v' hs hv'
          cases hs
          rw [h5] at hv'; cases hv'
        · intro _ r o hr
          rw [h4] at hr; cases hr
      · have hiff : o.entries.Nodup ↔ (v.entries.map Prod.fst).Nodup := by
          rw [List.nodup_iff_count_le_one, List.nodup_iff_count_le_one]
          constructor
          · intro hc i
            by_cases hi : i ∈ v.entries.map Prod.fst
            · obtain ⟨k, hk⟩ := List.mem_iff_getElem?.mp hi
              rcases forall₂_getElem? hv.ids k with ⟨-, h6⟩ | ⟨a, b, -, h6, hR⟩
              · rw [hk] at h6; cases h6
              · rw [hk] at h6; cases h6
                rw [count_names h.names hv.ids hR]; exact hc a
            · rw [List.count_eq_zero_of_not_mem hi]; omega
          · intro hc a
            by_cases ha : a ∈ o.entries
            · obtain ⟨k, hk⟩ := List.mem_iff_getElem?.mp ha
              rcases forall₂_getElem? hv.ids k with ⟨h6, -⟩ | ⟨a', b, h6, -, hR⟩
              · rw [hk] at h6; cases h6
              · rw [hk] at h6; cases h6
                rw [← count_names h.names hv.ids hR]; exact hc b
            · rw [List.count_eq_zero_of_not_mem ha]; omega
        constructor
        · intro hc s' v' hs hv'
          cases hs
          rw [h5] at hv'; cases hv'
          exact hiff.mp (hc r o h4 ho)
        · intro hc r' o' hr ho'
          rw [h4] at hr; cases hr
          rw [ho] at ho'; cases ho'
          exact hiff.mpr (hc s v rfl h5)
    | _ => exact ⟨fun _ _ _ h => (by cases h), fun _ => trivial⟩

/-- So C14 holds for every program that, read as a program over numbered objects, never inverts a sequence in which
an object occurs twice. -/
theorem C72_plain_lists (rng : Rng) (ops : List Op) (hq : ∀ op ∈ ops, op.OnQubits)
    (hi : Objects.start.NoSharedInverse ops) :
    List.Forall₂ SameResult ((Client.start rng).run 0 ops).1 (Plain.run ⟨[], []⟩ ops).1 ∧
    (∀ i, ((Client.start rng).run 0 ops).2.seq i = (Plain.run ⟨[], []⟩ ops).2.seqs[i]?) ∧
    (∀ i, ((Client.start rng).run 0 ops).2.entry i = (Plain.run ⟨[], []⟩ ops).2.entries[i]?) :=
  C14_sequences_are_lists rng ops hq ((C72_no_sharing rng ops hq).mpr hi)

/-! ## Programs that meet the hypotheses -/

/-- One phase gate object, used by the constructor and then appended once and once more. -/
noncomputable def appendProgram (more : ℕ) : List Op :=
  [.newEntry (tinyPhase (Real.pi / 4)) [0], .newSeq 2 false [0]] ++ List.replicate more (.appendLast 0 0 false)

theorem appendProgram_onQubits (more : ℕ) : ∀ op ∈ appendProgram more ++ [.inverse 0], op.OnQubits := by
  intro op hop
  simp only [appendProgram, List.mem_append, List.mem_cons, List.not_mem_nil, or_false, List.mem_replicate] at hop
  rcases hop with ((rfl | rfl) | ⟨-, rfl⟩) | rfl
  · exact ⟨2, tinyPhase_exact _⟩
  · exact ⟨1, rfl⟩
  · trivial
  · trivial

theorem phase_new : EntryVal.new (tinyPhase (Real.pi / 4)) [0] = .ok ⟨tinyPhase (Real.pi / 4), [0]⟩ :=
  entry_new_ok (qs := [0]) (by simp) (by simp) rfl

theorem phase_fits : Plain.fits 2 ⟨tinyPhase (Real.pi / 4), [0]⟩ := by
  intro q hq
  simp only [List.mem_singleton] at hq
  subst hq
  norm_num

/-- The constructor copies, so after appending the object once the two gates of the sequence are different objects, and
inverting the sequence inverts each of them. -/
example : Objects.start.NoSharedInverse (appendProgram 1 ++ [.inverse 0]) := by
  simp [appendProgram, Objects.NoSharedInverse, Objects.start, Objects.step, Objects.with_, phase_new, getAll,
    phase_fits, copies, Objects.change]
  rintro s v rfl hv
  cases hv
  simp

/-- After appending it twice, the object occurs twice, and inverting leaves these two gates as they were: the entries
of the inverse are the gate, the gate and the inverse of the gate. -/
example (rng : Rng) : ((Client.start rng).run 0 (appendProgram 2 ++ [.inverse 0])).2.seq 1 =
    some ⟨2, false, [⟨tinyPhase (Real.pi / 4), [0]⟩, ⟨tinyPhase (Real.pi / 4), [0]⟩,
      EntryVal.dagger ⟨tinyPhase (Real.pi / 4), [0]⟩], none⟩ := by
  rw [(C72_all_programs rng _ (appendProgram_onQubits 2)).2.1]
  simp [appendProgram, Objects.run, Objects.start, Objects.step, Objects.with_, phase_new, getAll,
    phase_fits, copies, Objects.change, ObjSeq.view, invertEach, occurrences]

example (rng : Rng) : ¬ (Client.start rng).NoSharedInverse 0 (appendProgram 2 ++ [.inverse 0]) := by
  rw [C72_no_sharing rng _ (appendProgram_onQubits 2)]
  simp [appendProgram, Objects.NoSharedInverse, Objects.start, Objects.step, Objects.with_, phase_new, getAll,
    phase_fits, copies, Objects.change]

/-- The client's handle and the second gate are one object, the first gate is another. -/
example (rng : Rng) :
    ((Client.start rng).run 0 (appendProgram 1 ++ [.inverse 0])).2.at (.handle 0) =
      ((Client.start rng).run 0 (appendProgram 1 ++ [.inverse 0])).2.at (.entry 0 1) ∧
    ((Client.start rng).run 0 (appendProgram 1 ++ [.inverse 0])).2.at (.handle 0) ≠
      ((Client.start rng).run 0 (appendProgram 1 ++ [.inverse 0])).2.at (.entry 0 0) := by
  rw [(C72_identity rng _ (appendProgram_onQubits 1) _ _).2, Ne, (C72_identity rng _ (appendProgram_onQubits 1) _ _).2]
  simp [appendProgram, Objects.run, Objects.start, Objects.step, Objects.with_, phase_new, getAll,
    phase_fits, copies, Objects.change, Objects.at, invertEach, occurrences]

/-- The same program with the text printed, the product formed and the length read in between. -/
noncomputable def printProgram (fmt : ℕ → ℝ → String) : List Op :=
  [.text .jaqal fmt 0] ++ appendProgram 1 ++ [.text .qasm fmt 0, .product 0, .getLength 0, .inverse 0, .text .display fmt 1]

example (fmt : ℕ → ℝ → String) :
    (printProgram fmt).filter (fun op => !op.looks) = appendProgram 1 ++ [.inverse 0] := by
  simp [printProgram, appendProgram, Op.looks]

theorem printProgram_onQubits (fmt : ℕ → ℝ → String) : ∀ op ∈ printProgram fmt, op.OnQubits := by
  intro op hop
  rcases hl : op.looks with _ | _
  · have h : op ∈ (printProgram fmt).filter fun op => !op.looks := List.mem_filter.mpr ⟨hop, by simp [hl]⟩
    rw [show (printProgram fmt).filter (fun op => !op.looks) = appendProgram 1 ++ [.inverse 0] by
      simp [printProgram, appendProgram, Op.looks]] at h
    exact appendProgram_onQubits 1 op h
  · simp only [printProgram, appendProgram, List.mem_append, List.mem_cons, List.not_mem_nil, or_false,
      List.mem_replicate] at hop
    rcases hop with (rfl | ((rfl | rfl) | ⟨-, rfl⟩)) | rfl | rfl | rfl | rfl | rfl <;> trivial

/-- The first text is asked for before the sequence exists; the second lists the two gates. -/
example (rng : Rng) (fmt : ℕ → ℝ → String) :
    ((Client.start rng).run 0 (printProgram fmt)).1[0]? = some (.error .dangling) ∧
    ((Client.start rng).run 0 (printProgram fmt)).1[4]? = some (.ok (.text (TextKind.text .qasm fmt
      [⟨tinyPhase (Real.pi / 4), [0]⟩, ⟨tinyPhase (Real.pi / 4), [0]⟩]))) := by
  have h := (C72_all_programs rng _ (printProgram_onQubits fmt)).1
  have h0 := forall₂_getElem? h 0
  have h4 := forall₂_getElem? h 4
  have e : (Objects.start.run (printProgram fmt)).1[0]? = some (.error .dangling) ∧
      (Objects.start.run (printProgram fmt)).1[4]? = some (.ok (.text (TextKind.text .qasm fmt
        [⟨tinyPhase (Real.pi / 4), [0]⟩, ⟨tinyPhase (Real.pi / 4), [0]⟩]))) := by
    simp [printProgram, appendProgram, Objects.run, Objects.start, Objects.step, Objects.with_, phase_new, getAll,
      phase_fits, copies, Objects.change]
  rw [e.1] at h0
  rw [e.2] at h4
  constructor
  · rcases h0 with ⟨-, h0⟩ | ⟨a, b, ha, hb, hab⟩
    · cases h0
    · cases hb
      rcases a with a | a <;> simp only [SameResult] at hab
      rw [ha, hab]
  · rcases h4 with ⟨-, h4⟩ | ⟨a, b, ha, hb, hab⟩
    · cases h4
    · cases hb
      rcases a with a | a <;> simp only [SameResult] at hab
      rcases a with _ | _ | _ | _ | _ | _ <;> simp only [SameObs] at hab
      rw [ha, hab]

end Stoq
