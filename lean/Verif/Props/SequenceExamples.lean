import Verif.Props.SequenceMore

/-!
# Concrete states that meet the hypotheses of C12 - C22
-/

namespace Stoq

open Matrix World

/-- A phase gate on qubit 0 and one on qubit 1. -/
noncomputable def demoGate (q : ℕ) : EntryVal := ⟨tinyPhase 1, [q]⟩

theorem demoGate_new (q : ℕ) : EntryVal.new (tinyPhase 1) [(q : ℤ)] = .ok (demoGate q) :=
  entry_new_ok (qs := [q]) (by simp) (by simp) rfl

/-- Two gates, a list-backed sequence with both, an array-backed one with the second, an empty one. -/
noncomputable def demoProgram : List Op :=
  [.newEntry (tinyPhase 1) [((0 : ℕ) : ℤ)], .newEntry (tinyPhase 1) [((1 : ℕ) : ℤ)], .newSeq 4 false [0, 1],
    .newSeq 4 true [1], .newSeq 4 false [], .newSeq 2 false [0]]

/-- The state the demo program ends in. -/
noncomputable def demo (rng : Rng) : Client := ((Client.start rng).run 0 demoProgram).2

theorem demo_onQubits : ∀ op ∈ demoProgram, op.OnQubits := by
  intro op hop
  simp only [demoProgram, List.mem_cons, List.not_mem_nil, or_false] at hop
  rcases hop with rfl | rfl | rfl | rfl | rfl | rfl
  · exact ⟨2, tinyPhase_exact _⟩
  · exact ⟨2, tinyPhase_exact _⟩
  · exact ⟨2, rfl⟩
  · exact ⟨2, rfl⟩
  · exact ⟨2, rfl⟩
  · exact ⟨1, rfl⟩

theorem demo_noShared (rng : Rng) : (Client.start rng).NoSharedInverse 0 demoProgram :=
  ⟨trivial, trivial, trivial, trivial, trivial, trivial, trivial⟩

theorem demo_reachable (rng : Rng) : (demo rng).Reachable :=
  ⟨rng, demoProgram, demo_onQubits, demo_noShared rng, rfl⟩

theorem demo_plain : (Plain.run ⟨[], []⟩ demoProgram).2 =
    ⟨[demoGate 0, demoGate 1], [⟨4, false, [demoGate 0, demoGate 1], none⟩, ⟨4, true, [demoGate 1], none⟩,
      ⟨4, false, [], none⟩, ⟨2, false, [demoGate 0], none⟩]⟩ := by
  have h0 : Plain.fits 4 (demoGate 0) := by simp [Plain.fits, demoGate]
  have h1 : Plain.fits 4 (demoGate 1) := by simp [Plain.fits, demoGate]
  have h2 : Plain.fits 2 (demoGate 0) := by simp [Plain.fits, demoGate]
  simp [demoProgram, Plain.run, Plain.step, Plain.with_, getAll, h0, h1, h2,
    show EntryVal.new (tinyPhase 1) [0] = _ from demoGate_new 0,
    show EntryVal.new (tinyPhase 1) [1] = _ from demoGate_new 1]

theorem demo_seqs (rng : Rng) (i : ℕ) : (demo rng).seq i =
    [⟨4, false, [demoGate 0, demoGate 1], none⟩, ⟨4, true, [demoGate 1], none⟩, ⟨4, false, [], none⟩,
      ⟨2, false, [demoGate 0], none⟩][i]? := by
  have := (C14_sequences_are_lists rng demoProgram demo_onQubits (demo_noShared rng)).2.1 i
  rw [demo_plain] at this
  exact this

theorem demo_entries (rng : Rng) (i : ℕ) : (demo rng).entry i = [demoGate 0, demoGate 1][i]? := by
  have := (C14_sequences_are_lists rng demoProgram demo_onQubits (demo_noShared rng)).2.2 i
  rw [demo_plain] at this
  exact this

/-- C12: `get_full_unitary(4)` of the gate on qubit 1. -/
example (rng : Rng) : ∃ u, ((demo rng).step 0 (.fullUnitary 1 (2 ^ 2))).1 = .ok (.unitary u) ∧
    u.Holds ((demoGate 1).op 2) :=
  C12_full_unitary_is_embedding (demo_reachable rng) (demo_entries rng 1) (by simp [demoGate])

/-- C15: the product of the two-gate sequence. -/
example (rng : Rng) : ∃ n u, 4 = 2 ^ n ∧ ((demo rng).step 0 (.product 0)).1 = .ok (.unitary u) ∧
    u.Holds (circuit n [demoGate 0, demoGate 1]) := by
  obtain ⟨n, u, h1, h2, h3, -⟩ := C15_product (demo_reachable rng) (demo_seqs rng 0)
  exact ⟨n, u, h1, h2, h3⟩

/-- C16: remove the last gate, append the other one without saving, then undo twice. -/
example (rng : Rng) (c1 : Client)
    (hc1 : c1 = (((demo rng).step 0 (.removeLast 0 true)).2.run 0 [.appendFirst 0 1 false, .product 0]).2) :
    (c1.step 0 (.undo 0)).1 = .ok .unit ∧
    (c1.step 0 (.undo 0)).2.seq 0 = some ⟨4, false, [demoGate 0, demoGate 1], none⟩ := by
  obtain ⟨p, -, -, -, -, h⟩ := reachable_refines (demo_reachable rng)
  have hres : ∃ obs, ((demo rng).step 0 (.removeLast 0 true)).1 = .ok obs := by
    obtain ⟨p, h1, h2, h3, -, h⟩ := reachable_refines (demo_reachable rng)
    have h4 := (h (.removeLast 0 true) trivial trivial).1
    have h5 : p.seqs[0]? = some ⟨4, false, [demoGate 0, demoGate 1], none⟩ := by rw [← h1]; exact demo_seqs rng 0
    simp [Plain.step, Plain.with_, h5, Plain.change] at h4
    rcases hres : ((demo rng).step 0 (.removeLast 0 true)).1 with e | obs
    · rw [hres] at h4; exact absurd h4 (by simp [SameResult])
    · exact ⟨obs, rfl⟩
  obtain ⟨obs, hres⟩ := hres
  obtain ⟨h1, h2, -⟩ := C16_undo_restores (demo_reachable rng).any (demo_seqs rng 0) (op := .removeLast 0 true)
    ⟨rfl, rfl⟩ hres (by simp) [.appendFirst 0 1 false, .product 0]
    (by intro o ho; simp only [List.mem_cons, List.not_mem_nil, or_false] at ho
        rcases ho with rfl | rfl <;> simp [Op.KeepsUndo]) c1 _ hc1 rfl
  exact ⟨h1, h2⟩

/-- C17: the two gates of the first sequence are different, so its inverse is right. -/
example (rng : Rng) : ((demo rng).step 0 (.inverse 0)).2.seq 4 =
    some ⟨4, false, [(demoGate 1).dagger, (demoGate 0).dagger], none⟩ := by
  have h := (C17_inverse (demo_reachable rng) (demo_seqs rng 0) rfl
    (C17_distinct_gates (demo_reachable rng).any (demo_seqs rng 0) (by simp [demoGate])) _ rfl).2.1
  obtain ⟨p, h1, -, h2, -, -⟩ := reachable_refines (demo_reachable rng)
  have hlen : (demo rng).seqs.length = 4 := by
    rw [h2]
    have e3 := h1 3
    have e4 := h1 4
    rw [demo_seqs] at e3 e4
    have l3 := (List.getElem?_eq_some_iff.mp e3.symm).1
    have l4 := List.getElem?_eq_none_iff.mp e4.symm
    omega
  rw [hlen] at h
  exact h

/-- C19: the first three sequences can be combined; the fourth has another dimension. -/
example (rng : Rng) : ((demo rng).step 0 (.combine [0, 1, 2])).1 = .ok .handle :=
  (C19_combine (demo_reachable rng) (ss := [0, 1, 2]) (vs := [⟨4, false, [demoGate 0, demoGate 1], none⟩,
    ⟨4, true, [demoGate 1], none⟩, ⟨4, false, [], none⟩]) (D := 4)
    (by simp [demo_seqs]) (by simp) (by simp) _ rfl).1

example (rng : Rng) : (demo rng).step 0 (.combine [0, 3]) = (.error .assertion, demo rng) :=
  C19_combine_rejects (demo_reachable rng).any (ss := [0, 3])
    (vs := [⟨4, false, [demoGate 0, demoGate 1], none⟩, ⟨2, false, [demoGate 0], none⟩]) (by simp [demo_seqs])
    (fun D => by
      right
      by_cases h : D = 4
      · exact ⟨⟨2, false, [demoGate 0], none⟩, by simp, by simp [h]⟩
      · exact ⟨⟨4, false, [demoGate 0, demoGate 1], none⟩, by simp, fun h' => h h'.symm⟩)

/-- C21: the gate on qubit 1 does not fit the one-qubit sequence; the gate on qubit 0 fits. -/
example (rng : Rng) : (demo rng).step 0 (.appendLast 3 1 true) = (.error .assertion, demo rng) :=
  (C21_rejected_unchanged (demo_reachable rng).any (i := 3) (j := 1) (demo_seqs rng 3) (demo_entries rng 1)
    (by simp [Plain.fits, demoGate]) true).2

example (rng : Rng) : ((demo rng).step 0 (.appendLast 3 0 true)).1 = .ok .unit :=
  (C21_fitting_accepted (demo_reachable rng) (i := 3) (j := 0) (demo_seqs rng 3) rfl (demo_entries rng 0)
    (by simp [Plain.fits, demoGate]) true).2.1

/-- C22: the array-backed sequence. -/
example (rng : Rng) : ((demo rng).step 0 (.removeFirst 1 true)).1 = .error .attributeError :=
  (C22_attribute_error (demo_reachable rng) (i := 1) (j := 0) (demo_seqs rng 1) rfl (demo_entries rng 0)
    (by simp [Plain.fits, demoGate]) (by simp) true _ (by simp)).1

/-- C21 on a six-dimensional system: a gate on qubit 0 and an empty sequence of dimension 6. -/
noncomputable def demo6 (rng : Rng) : Client :=
  ((Client.start rng).run 0 [.newEntry (tinyPhase 1) [((0 : ℕ) : ℤ)], .newSeq 6 false []]).2

theorem demo6_eq (rng : Rng) : demo6 rng =
    ⟨⟨[⟨demoGate 0, []⟩], [⟨6, false, [], none, none, none⟩], [], rng⟩, [0], [0]⟩ := by
  have h1 : (Client.start rng).step 0 (.newEntry (tinyPhase 1) [((0 : ℕ) : ℤ)]) =
      (.ok .handle, ⟨⟨[⟨demoGate 0, []⟩], [], [], rng⟩, [0], []⟩) := by
    simp only [Client.step, Entry.new, demoGate_new]
    rfl
  simp only [demo6, Client.run, h1]
  rfl

/-- After asking for the product (the identity), appending the gate raises but the gate is in the list, while
`product()` still returns the identity. -/
example (rng : Rng) (c1 c2 : Client) (hc1 : c1 = ((demo6 rng).step 0 (.product 0)).2)
    (hc2 : c2 = (c1.step 0 (.appendLast 0 0 false)).2) :
    (∃ err, (c1.step 0 (.appendLast 0 0 false)).1 = .error err) ∧
    c2.seq 0 = some ⟨6, false, [demoGate 0], none⟩ ∧
    (c2.step 0 (.product 0)).1 = .ok (.unitary (Unitary.plain (Arr.identity 6))) := by
  refine C21_not_power_of_two (c := demo6 rng) ⟨rng, _, rfl⟩ (i := 0) (j := 0) (v := ⟨6, false, [], none⟩)
    (e := demoGate 0) (by rw [demo6_eq]; rfl) rfl (by rw [demo6_eq]; rfl) (by simp [Plain.fits, demoGate]) ?_ ?_ c1 c2
    hc1 hc2
  · intro k hk
    have h6 : (6 : ℕ) = 2 ^ k := hk
    rcases k with _ | _ | _ | k
    · omega
    · omega
    · omega
    · rw [pow_succ, pow_succ, pow_succ] at h6; omega
  · rw [demo6_eq]
    have hp : Seq.product 0 0 ⟨[⟨demoGate 0, []⟩], [⟨6, false, [], none, none, none⟩], [], rng⟩ =
        (.ok (Unitary.plain (Arr.identity 6)), ⟨[⟨demoGate 0, []⟩],
          [⟨6, false, [], some (Unitary.plain (Arr.identity 6)), none, none⟩], [], rng⟩) := by
      unfold Seq.product
      rw [PyM.bind_of_ok (getSeq_some (o := ⟨6, false, [], none, none, none⟩) rfl)]
      simp only
      rw [Unitary.new_default_eq (by norm_num)]
      rfl
    simp only [Client.step, Client.with_, List.getElem?_cons_zero]
    rw [(Client.call_eq).1 _ _ hp]

end Stoq
