import Verif.Props.Task
import Verif.Props.Text

/-!
# C23 for all sequences, also those the library returns
-/

namespace Stoq

open World

/-- C23 in every session, so also for sequences made by compilers, verification functions and Hamiltonians, for every
matrix arithmetic. -/
theorem C23_text_sessions {τ : Arith} {c : Client} {Cs : List Compiler} (hs : Session τ c Cs) {i r : ℕ} {v : SeqView}
    (hr : c.seqs[i]? = some r) (hv : c.seq i = some v) (k : TextKind) (fmt : ℕ → ℝ → String) :
    (∀ t, (k.call τ fmt r c.world).1 = .ok t → t = k.text fmt v.entries) ∧
    (∀ j, { c with world := (k.call τ fmt r c.world).2 }.seq j = c.seq j) := by
  obtain ⟨h1, h2, h3⟩ := textOutput_spec hs.ok.1 hr hv k fmt
  refine ⟨fun t ht => ?_, h2⟩
  rw [h1] at ht
  rcases hl : freshLines τ (k.unitary fmt) v.dimension v.entries with e | ls
  · rw [hl] at ht; cases ht
  · rw [hl] at ht
    cases ht
    have := freshLines_eq (g := k.line fmt) (fun e he u hu => ?_) hl
    · rw [this]; rfl
    · obtain ⟨f1, f2, f3, f4⟩ := fullUnitary_fields hu
      rw [k.unitary_eq fmt (by rw [f4]; exact (h3 e he).nonempty) f3]
      cases k <;> simp [TextKind.line, f1, f2, f4]

/-- On qubits in exact arithmetic the text methods always return, also for sequences the library returned. -/
theorem C23_text_mirror {c : Client} {Cs : List Compiler} {p : Plain} (h : Mirror c Cs p) {i r : ℕ} {v : SeqView}
    (hr : c.seqs[i]? = some r) (hv : c.seq i = some v) (k : TextKind) (fmt : ℕ → ℝ → String) :
    (k.call 0 fmt r c.world).1 = .ok (k.text fmt v.entries) := by
  obtain ⟨hs, hp⟩ := h.rel
  obtain ⟨h1, -, -⟩ := textOutput_spec hs.ok.1 hr hv k fmt
  obtain ⟨r', o, h3, h4, rfl⟩ := seq_eq_some hv
  have hpv : p.seqs[i]? = some (viewOf c.world.entries o) := by rw [← seq_of_forall₂ hp.seqs]; exact hv
  obtain ⟨n, hn⟩ := hp.pow _ (List.mem_of_getElem? hpv)
  have hrf := (hp.wf.seq h4).entries
  have hn' : o.dimension = 2 ^ n := hn
  rw [hn'] at hrf
  obtain ⟨ls, hls⟩ := freshLines_exact (f := k.unitary fmt) (refsOk_vals hp.wf.entries hrf hp.exact)
  have hok : (k.call 0 fmt r c.world).1 = .ok (k.header ++ "\n".intercalate ls) := by
    rw [h1]
    show (freshLines 0 (k.unitary fmt) o.dimension (valsOf c.world.entries o.entries)).map _ = _
    rw [hn', hls]; rfl
  rw [hok]
  exact congrArg _ ((C23_text_sessions hs hr hv k fmt).1 _ hok)

end Stoq
