import Verif.Proofs.Hamiltonian
import Verif.Proofs.Text
import Verif.Props.SequenceExamples

/-!
# Properties C23 and C24: text output
-/

namespace Stoq

open World

theorem textOutput_spec {τ : Arith} {c : Client} (hc : c.Ok τ) {i r : ℕ} {v : SeqView} (hr : c.seqs[i]? = some r)
    (hv : c.seq i = some v) (k : TextKind) (fmt : ℕ → ℝ → String) :
    (k.call τ fmt r c.world).1 =
      (freshLines τ (k.unitary fmt) v.dimension v.entries).map (fun ls => k.header ++ "\n".intercalate ls) ∧
    (∀ j, { c with world := (k.call τ fmt r c.world).2 }.seq j = c.seq j) ∧
    (∀ e ∈ v.entries, e.WF) := by
  obtain ⟨r', o, h1, h2, rfl⟩ := seq_eq_some hv
  rw [hr] at h1; cases h1
  have hso := hc.wf.seq h2
  rw [k.call_eq]
  have hw : Wp (Seq.textOutput τ k.header (k.unitary fmt) r) (fun res w' =>
      res = (freshLines τ (k.unitary fmt) o.dimension (valsOf c.world.entries o.entries)).map
        (fun ls => k.header ++ "\n".intercalate ls) ∧ Caches τ c.world w') c.world := by
    unfold Seq.textOutput
    refine Wp.getSeq_bind h2 (Wp.bind ((textLines_wp o.entries c.world hc.wf.entries hso.entries.lt).mono ?_))
    rintro res w' ⟨hres, hca⟩
    rcases res with e | ls
    · simp only; rw [← hres]; exact ⟨rfl, hca⟩
    · simp only; rw [← hres]; exact Wp.pure ⟨rfl, hca⟩
  unfold Wp at hw
  refine ⟨hw.1, fun j => ?_, ?_⟩
  · have hca := hw.2
    generalize (Seq.textOutput τ k.header (k.unitary fmt) r c.world).2 = w' at hca
    have hseqs : w'.seqs = c.world.seqs := by rw [hca.eq]
    unfold Client.seq
    simp only
    rcases hj : c.seqs[j]? with _ | s
    · rfl
    · simp only [Option.bind_some]
      have hlt := hc.seqs s (List.mem_of_getElem? hj)
      have hs := List.getElem?_eq_getElem hlt
      unfold World.view
      rw [hseqs, hs]
      have hsq := hc.wf.seq hs
      simp only [Option.map_some, vals_eq]
      rw [hsq.entries.vals_grow hca.grow]
      have hpe : (c.world.seqs[s]).previousEntries.map w'.vals = (c.world.seqs[s]).previousEntries.map c.world.vals := by
        rcases hp : (c.world.seqs[s]).previousEntries with _ | ps
        · rfl
        · simp only [Option.map_some, vals_eq]
          rw [(hsq.prev ps hp).vals_grow hca.grow]
      rw [hpe]
  · intro e he
    obtain ⟨a, -, x, hx, rfl⟩ := mem_valsOf.mp he
    exact (hc.wf.entries x (List.mem_of_getElem? hx)).wf

/-! ## C23 -/

/-- For every matrix arithmetic and every state: if a text method returns, the text is the header followed by
one line per entry, in order, each with the entry's operation name, parameters and qubits.  Sequences are
unchanged whether it returns or raises. -/
theorem C23_text_lists_entries {τ : Arith} {c : Client} (hc : c.ReachableAny τ) {i r : ℕ} {v : SeqView}
    (hr : c.seqs[i]? = some r) (hv : c.seq i = some v) (k : TextKind) (fmt : ℕ → ℝ → String) :
    (∀ t, (k.call τ fmt r c.world).1 = .ok t → t = k.text fmt v.entries) ∧
    (∀ j, { c with world := (k.call τ fmt r c.world).2 }.seq j = c.seq j) := by
  obtain ⟨h1, h2, h3⟩ := textOutput_spec hc.ok hr hv k fmt
  refine ⟨fun t ht => ?_, h2⟩
  rw [h1] at ht
  rcases hl : freshLines τ (k.unitary fmt) v.dimension v.entries with e | ls
  · rw [hl] at ht; cases ht
  · rw [hl] at ht
    cases ht
    have := freshLines_eq (g := k.line fmt) (fun e he u hu => ?_) hl
    · rw [this]; rfl
    · obtain ⟨f1, f2, f3, f4⟩ := fullUnitary_fields hu
      rw [k.unitary_eq fmt (by rw [f4]; exact (h3 e he).nonempty) f3]
      cases k <;> simp [TextKind.line, f1, f2, f4]

/-- On qubits in exact arithmetic the text methods always return. -/
theorem C23_text_total {c : Client} (hc : c.Reachable) {i r : ℕ} {v : SeqView}
    (hr : c.seqs[i]? = some r) (hv : c.seq i = some v) (k : TextKind) (fmt : ℕ → ℝ → String) :
    (k.call 0 fmt r c.world).1 = .ok (k.text fmt v.entries) := by
  obtain ⟨h1, -, -⟩ := textOutput_spec hc.any.ok hr hv k fmt
  obtain ⟨p, hp⟩ := hc.rel
  obtain ⟨r', o, h3, h4, rfl⟩ := seq_eq_some hv
  have hpv : p.seqs[i]? = some (viewOf c.world.entries o) := by rw [← seq_of_forall₂ hp.seqs]; exact hv
  obtain ⟨n, hn⟩ := hp.pow _ (List.mem_of_getElem? hpv)
  have hrf := (hp.wf.seq h4).entries
  have hn' : o.dimension = 2 ^ n := hn
  rw [hn'] at hrf
  obtain ⟨ls, hls⟩ := freshLines_exact (f := k.unitary fmt) (refsOk_vals hp.wf.entries hrf hp.exact)
  have hok : (k.call 0 fmt r c.world).1 = .ok (k.header ++ "\n".intercalate ls) := by
    rw [h1]
    show (freshLines 0 (k.unitary fmt) o.dimension (valsOf c.world.entries o.entries)).map _ = _
    rw [hn', hls]; rfl
  rw [hok]
  exact congrArg _ ((C23_text_lists_entries hc.any hr hv k fmt).1 _ hok)

/-- The text of a unitary itself: the specified line for its qubits, or for all qubits when none are given; the
display name then names no qubits.  An inverted unitary has a dagger in its display name only. -/
theorem C23_unitary_text {n : ℕ} (fmt : ℕ → ℝ → String) (u : Unitary) (hd : u.getDimension = 2 ^ n) :
    let qubits := if u.applyTo = [] then List.range n else u.applyTo
    u.getJaqal fmt = jaqalLine fmt u.operationName u.parameterDict qubits ∧
    u.getQasm fmt = qasmLine fmt u.operationName u.parameterDict qubits ∧
    (u.applyTo ≠ [] → u.getDisplayName fmt = displayLine fmt u.operationName u.parameterDict u.applyTo ++
      if u.isInverse then "†" else "") ∧
    (u.applyTo = [] → u.parameterDict = [] → u.getDisplayName fmt =
      u.operationName ++ if u.isInverse then "†" else "") := by
  have hq : u.textQubits = if u.applyTo = [] then List.range n else u.applyTo := by
    unfold Unitary.textQubits
    rw [hd, intLog2_pow]
    simp only [List.length_eq_zero_iff]
  refine ⟨?_, ?_, fun h => ?_, fun h hp => ?_⟩
  · unfold Unitary.getJaqal jaqalLine
    rw [hq]
  · unfold Unitary.getQasm qasmLine
    rw [hq]
    by_cases hp : u.parameterDict = []
    · simp [hp]
    · simp [hp, List.length_pos_iff.mpr hp]
  · cases hi : u.isInverse
    · rw [display_eq h hi]; simp
    · have h2 : ({ u with isInverse := false } : Unitary).getDisplayName fmt = _ :=
        display_eq (fmt := fmt) (u := { u with isInverse := false }) h rfl
      have h3 : u.getDisplayName fmt = ({ u with isInverse := false } : Unitary).getDisplayName fmt ++ "†" := by
        simp [Unitary.getDisplayName, hi]
      rw [h3, h2]; simp
  · simp [Unitary.getDisplayName, h, hp]

/-- A two-qubit identity without qubits is printed on both. -/
example (fmt : ℕ → ℝ → String) :
    Unitary.getQasm fmt { (tinyPhase 1) with matrix := Arr.identity 4 } = "U\tq[0],q[1];" := by
  rw [(C23_unitary_text (n := 2) fmt _ rfl).2.1]
  simp [tinyPhase, qasmLine, List.range_succ]
  decide

/-! ## C24 -/

/-- The specified line of an inverted gate is the line of the gate. -/
theorem line_dagger (k : TextKind) (fmt : ℕ → ℝ → String) (e : EntryVal) : k.line fmt e.dagger = k.line fmt e := by
  cases k <;> rfl

/-- The texts of the inverse of a sequence are the lines of the sequence in reverse order, without any mark of the
inversion, although its entries are the inverted gates. -/
theorem C24_text_loses_inversion {c : Client} (hc : c.Reachable) {i : ℕ} {v : SeqView} (hv : c.seq i = some v)
    (hl : v.isArray = false) (hi : c.Unshared i) (c' : Client) (hc' : c' = (c.step 0 (.inverse i)).2) {r : ℕ}
    (hr : c'.seqs[c.seqs.length]? = some r) (k : TextKind) (fmt : ℕ → ℝ → String) :
    (k.call 0 fmt r c'.world).1 = .ok (k.text fmt v.entries.reverse) ∧
    c'.seq c.seqs.length = some ⟨v.dimension, false, (v.entries.map EntryVal.dagger).reverse, none⟩ := by
  obtain ⟨-, h2, -⟩ := C17_inverse hc hv hl hi c' hc'
  refine ⟨?_, h2⟩
  rw [C23_text_total (hc' ▸ hc.step trivial hi) hr h2 k fmt]
  simp only [TextKind.text, List.map_reverse, List.map_map]
  have : k.line fmt ∘ EntryVal.dagger = k.line fmt := funext fun e => line_dagger k fmt e
  rw [this]

/-- Printing the entry's own unitary does show the inversion, so the mark is lost in `get_full_unitary`. -/
theorem C24_unitary_shows_inversion (fmt : ℕ → ℝ → String) (u : Unitary) (h : u.isInverse = false) :
    ({ u with isInverse := true } : Unitary).getDisplayName fmt = u.getDisplayName fmt ++ "†" := by
  simp [Unitary.getDisplayName, h]

/-- For every matrix arithmetic, the display line of an entry, when it is printed, does not depend on the dagger
mark of its unitary. -/
theorem C24_line_ignores_mark {τ : Arith} {D : ℕ} (e : EntryVal) (b : Bool) (k : TextKind) (fmt : ℕ → ℝ → String) :
    (({ e with unitary := { e.unitary with isInverse := b } } : EntryVal).fullUnitary τ D).map (k.unitary fmt) =
      (e.fullUnitary τ D).map (k.unitary fmt) := rfl

/-- The demo sequence prints its two gates; its inverse prints them in reverse order. -/
example (rng : Rng) (r : ℕ) (hr : (demo rng).seqs[0]? = some r) (fmt : ℕ → ℝ → String) :
    (Seq.getQasm 0 fmt r (demo rng).world).1 =
      .ok ("# QASM generated from UnitarySequence.get_qasm()\n" ++ ("U\tq[0];\nU\tq[1];")) := by
  have := C23_text_total (demo_reachable rng) hr (demo_seqs rng 0) .qasm fmt
  rw [show Seq.getQasm 0 fmt r (demo rng).world = TextKind.qasm.call 0 fmt r (demo rng).world from rfl, this]
  simp [TextKind.text, TextKind.line, TextKind.header, demoGate, tinyPhase, qasmLine]
  decide

end Stoq
