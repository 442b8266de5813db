import Verif.Proofs.ObjectsVal

/-! Which objects the mutators store as undo state. -/

namespace Stoq

open World

/-- The entry references kept for `undo()`. -/
def SavedRefs (w : World) (s : ℕ) (o : SeqObj) (b : Bool) (w' : World) : Prop :=
  ∃ o', w'.seqs[s]? = some o' ∧
    (b = true → ∃ f : ℕ → ℕ, o'.previousEntries = some (o.entries.map f) ∧
      (∀ x ∈ o.entries, ∀ y ∈ o.entries, f x = f y → x = y) ∧ ∀ x ∈ o.entries, w.entries.length ≤ f x) ∧
    (b = true → o.product ≠ none → o'.previousProduct ≠ none) ∧
    (b = false → o'.previousEntries = o.previousEntries)

/-- The undo state is left alone. -/
def KeepsPrev (s : ℕ) (o : SeqObj) (w' : World) : Prop :=
  ∃ o', w'.seqs[s]? = some o' ∧ o'.previousEntries = o.previousEntries ∧ o'.previousProduct = o.previousProduct

section

variable {τ : Arith} {w : World} {s e : ℕ} {o : SeqObj} {x : EntryObj} {Pp : Unitary → Prop}

theorem updTail_keeps {upd : List ℕ} {mul : Unitary → Unitary → Except PyErr Unitary} (hw : w.WF τ)
    (hs : w.seqs[s]? = some o) (he : w.entries[e]? = some x) :
    Wp (updTail τ s e upd mul o) (fun _ w' => KeepsPrev s o w') w := by
  have hlt : s < w.seqs.length := (List.getElem?_eq_some_iff.mp hs).1
  unfold updTail
  refine Wp.setSeq_bind ?_
  rcases hp : o.product with _ | p
  · simp only
    exact Wp.pure ⟨{ o with entries := upd }, by rw [List.getElem?_set_self hlt, hp], rfl, rfl⟩
  · simp only
    have h1 : KeepsPrev s o { w with seqs := w.seqs.set s { o with entries := upd, product := some p } } :=
      ⟨_, List.getElem?_set_self hlt, rfl, rfl⟩
    refine Wp.bind ?_
    refine Wp.mono (getFullUnitary_wp
      (w := { w with seqs := w.seqs.set s { o with entries := upd, product := some p } }) hw.entries he o.dimension) ?_
    rintro res w2 ⟨hres, x', rfl, -, -⟩
    rcases res with err | u
    · exact h1
    · simp only
      refine Wp.lift_bind (fun p' _ => ?_) fun _ _ => h1
      exact Wp.setSeq ⟨{ o with entries := upd, product := some p' }, List.getElem?_set_self (by simpa using hlt), rfl, rfl⟩

theorem saveUndo_saved (hw : w.WF τ) (hs : w.seqs[s]? = some o) (hsave : Saves τ o true Pp) :
    Wp (Seq.saveUndoState τ s) (fun _ w' => SavedRefs w s o true w') w := by
  have hlt : s < w.seqs.length := (List.getElem?_eq_some_iff.mp hs).1
  unfold Seq.saveUndoState
  refine Wp.getSeq_bind hs (Wp.bind ?_)
  refine (deepcopy_wp (hw.seq hs).entries.lt).mono ?_
  rintro res w1 ⟨f, l, rfl, rfl, -, hinj, hf⟩
  simp only
  have mk : ∀ o' : SeqObj, o'.previousEntries = some (o.entries.map f) →
      (o.product ≠ none → o'.previousProduct ≠ none) → ∀ w' : World, w'.seqs[s]? = some o' →
      SavedRefs w s o true w' := fun o' h h2 w' h' =>
    ⟨o', h', fun _ => ⟨f, h, hinj, fun x hx => (hf x hx).1⟩, fun _ => h2, fun h => (by cases h)⟩
  refine Wp.setSeq_bind ?_
  rcases hp : o.product with _ | p
  · simp only
    exact Wp.pure (mk { o with previousEntries := some (o.entries.map f) } rfl (fun h => absurd hp h) _ (by
      rw [List.getElem?_set_self hlt, hp]))
  · simp only
    obtain ⟨p', hp', -⟩ := hsave rfl p hp
    refine Wp.lift_bind (fun p1 _ => ?_) fun err herr => ?_
    · exact Wp.setSeq (mk { o with previousEntries := some (o.entries.map f), previousProduct := some p1 } rfl
        (fun _ h => (by cases h)) _ (by rw [List.getElem?_set_self (by simpa using hlt), hp]))
    · rw [hp'] at herr; cases herr

theorem guard_false_saved {k : SeqObj → PyM World Unit} (hs : w.seqs[s]? = some o)
    (hk : Wp (k o) (fun _ w' => KeepsPrev s o w') w) :
    Wp (getSeq s >>= fun o => Seq.requireList o >>= fun _ => k o) (fun _ w' => KeepsPrev s o w') w := by
  refine Wp.getSeq_bind hs ?_
  unfold Seq.requireList
  exact Wp.lift_bind (fun _ _ => hk) fun _ _ => ⟨o, hs, rfl, rfl⟩

theorem guard_true_saved {k : SeqObj → PyM World Unit} (hw : w.WF τ) (hs : w.seqs[s]? = some o)
    (hsave : Saves τ o true Pp)
    (hk : ∀ w1 o1, Step τ w w1 s o o1 → o1.entries = o.entries → Wp (k o1) (fun _ w' => KeepsPrev s o1 w') w1) :
    Wp (Seq.saveUndoState τ s >>= fun _ => getSeq s >>= fun o => Seq.requireList o >>= fun _ => k o)
      (fun _ w' => SavedRefs w s o true w') w := by
  refine Wp.bind (((saveUndo_wp hw hs).and (saveUndo_saved hw hs hsave)).mono ?_)
  rintro res w1 ⟨⟨o1, ps, st, he, -, -⟩, h2⟩
  rcases res with err | _
  · exact h2
  simp only
  refine (guard_false_saved (st.get hs) (hk w1 o1 st he)).mono ?_
  rintro res w' ⟨o', h3, h4, h4'⟩
  obtain ⟨o2, h5, h6, h7, -⟩ := h2
  rw [st.get hs] at h5; cases h5
  exact ⟨o', h3, fun h => by rw [h4]; exact h6 h, fun h => by rw [h4']; exact h7 h, fun h => (by cases h)⟩

theorem KeepsPrev.saved {w' : World} (h : KeepsPrev s o w') : SavedRefs w s o false w' := by
  obtain ⟨o', h1, h2, -⟩ := h
  exact ⟨o', h1, fun h => (by cases h), fun h => (by cases h), fun _ => h2⟩

theorem tail_keeps {upd : List ℕ} {mul : Unitary → Unitary → Except PyErr Unitary} (hw : w.WF τ)
    (hs : w.seqs[s]? = some o) (he : w.entries[e]? = some x) {w1 : World} {o1 : SeqObj} (st : Step τ w w1 s o o1) :
    Wp (updTail τ s e upd mul o1) (fun _ w' => KeepsPrev s o1 w') w1 := by
  obtain ⟨x1, hx1, -⟩ := st.grow e x he
  exact updTail_keeps (st.wf hw) (st.get hs) hx1

theorem appendLast_saved (hw : w.WF τ) (hs : w.seqs[s]? = some o) (he : w.entries[e]? = some x)
    (hfit : FitsDim x.toVal o.dimension) (b : Bool) (hsave : Saves τ o b Pp) :
    Wp (Seq.appendLast τ s e b) (fun _ w' => SavedRefs w s o b w') w := by
  unfold Seq.appendLast
  refine Wp.getSeq_bind hs (Wp.assertIsEntryValid_bind he (fun _ => ?_) fun h => absurd hfit h)
  cases b
  · exact (guard_false_saved (k := fun o1 => updTail τ s e (o1.entries ++ [e]) (fun p u => p.leftMultiply τ u) o1)
      hs (tail_keeps hw hs he (.refl hw hs))).mono fun _ _ h => h.saved
  · exact guard_true_saved (k := fun o1 => updTail τ s e (o1.entries ++ [e]) (fun p u => p.leftMultiply τ u) o1)
      hw hs hsave fun _ _ st _ => tail_keeps hw hs he st

theorem appendFirst_saved (hw : w.WF τ) (hs : w.seqs[s]? = some o) (he : w.entries[e]? = some x)
    (hfit : FitsDim x.toVal o.dimension) (b : Bool) (hsave : Saves τ o b Pp) :
    Wp (Seq.appendFirst τ s e b) (fun _ w' => SavedRefs w s o b w') w := by
  unfold Seq.appendFirst
  refine Wp.getSeq_bind hs (Wp.assertIsEntryValid_bind he (fun _ => ?_) fun h => absurd hfit h)
  cases b
  · exact (guard_false_saved (k := fun o1 => updTail τ s e (e :: o1.entries) (fun p u => p.rightMultiply τ u) o1)
      hs (tail_keeps hw hs he (.refl hw hs))).mono fun _ _ h => h.saved
  · exact guard_true_saved (k := fun o1 => updTail τ s e (e :: o1.entries) (fun p u => p.rightMultiply τ u) o1)
      hw hs hsave fun _ _ st _ => tail_keeps hw hs he st

theorem removeFirst_saved {r : ℕ} {rest : List ℕ} (hw : w.WF τ) (hs : w.seqs[s]? = some o) (hl : o.entries = r :: rest)
    (he : w.entries[r]? = some x) (b : Bool) (hsave : Saves τ o b Pp) :
    Wp (Seq.removeFirst τ s b) (fun _ w' => SavedRefs w s o b w') w := by
  have tail : ∀ w1 o1, Step τ w w1 s o o1 → o1.entries = o.entries →
      Wp (match o1.entries with
        | [] => PyM.raise .indexError
        | removed :: rest => updTail τ s removed rest
            (fun p u => u.inverse τ >>= fun i => p.rightMultiply τ i) o1) (fun _ w' => KeepsPrev s o1 w') w1 := by
    intro w1 o1 st hent
    rw [hent, hl]
    exact tail_keeps hw hs he st
  unfold Seq.removeFirst Seq.getLength
  refine Wp.bind (Wp.getSeq_bind hs (Wp.pure ?_))
  simp only [liftBind_eq]
  rw [if_pos (by rw [hl]; simp)]
  cases b
  · exact (guard_false_saved hs (tail w o (.refl hw hs) rfl)).mono fun _ _ h => h.saved
  · exact guard_true_saved hw hs hsave tail

theorem removeLast_saved {r : ℕ} {front : List ℕ} (hw : w.WF τ) (hs : w.seqs[s]? = some o)
    (hl : o.entries = front ++ [r]) (he : w.entries[r]? = some x) (b : Bool) (hsave : Saves τ o b Pp) :
    Wp (Seq.removeLast τ s b) (fun _ w' => SavedRefs w s o b w') w := by
  have tail : ∀ w1 o1, Step τ w w1 s o o1 → o1.entries = o.entries →
      Wp (match o1.entries.getLast? with
        | none => PyM.raise .indexError
        | some removed => updTail τ s removed o1.entries.dropLast
            (fun p u => u.inverse τ >>= fun i => p.leftMultiply τ i) o1) (fun _ w' => KeepsPrev s o1 w') w1 := by
    intro w1 o1 st hent
    rw [hent, hl, List.getLast?_concat]
    exact tail_keeps hw hs he st
  unfold Seq.removeLast Seq.getLength
  refine Wp.bind (Wp.getSeq_bind hs (Wp.pure ?_))
  simp only [liftBind_eq]
  rw [if_pos (by rw [hl]; simp)]
  cases b
  · exact (guard_false_saved hs (tail w o (.refl hw hs) rfl)).mono fun _ _ h => h.saved
  · exact guard_true_saved hw hs hsave tail

end

end Stoq
