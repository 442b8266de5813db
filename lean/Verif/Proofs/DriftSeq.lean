import Verif.Proofs.SequenceRead
import Verif.Proofs.DriftEntry

/-!
What the mutators store as `sequence_product` and `previous_sequence_product`, for every arithmetic, in
runs in which the constructor accepts all matrices.
-/

namespace Stoq

open World

theorem Wp.and {σ α : Type} {w : σ} {m : PyM σ α} {Q Q' : Except PyErr α → σ → Prop} (h : Wp m Q w) (h' : Wp m Q' w) :
    Wp m (fun r w' => Q r w' ∧ Q' r w') w := ⟨h, h'⟩

/-- The stored products after an update. -/
structure UpdVal (o : SeqObj) (P : Unitary → Prop) (o' : SeqObj) : Prop where
  prod : ∀ p, o'.product = some p → P p
  noprod : o'.product = none ↔ o.product = none
  keep : o'.previousProduct = o.previousProduct

theorem updTail_val {τ : Arith} {w : World} {s e : ℕ} {o : SeqObj} {x : EntryObj} {upd : List ℕ}
    {mul : Unitary → Unitary → Except PyErr Unitary} {P : Unitary → Prop} (hw : w.WF τ)
    (hs : w.seqs[s]? = some o) (he : w.entries[e]? = some x)
    (hmul : ∀ p, o.product = some p → ∃ f, x.toVal.fullUnitary τ o.dimension = .ok f ∧
      ∃ p', mul p f = .ok p' ∧ P p') :
    Wp (updTail τ s e upd mul o)
      (fun res w' => res = .ok () ∧ ∃ o', w'.seqs[s]? = some o' ∧ UpdVal o P o') w := by
  have hlt : s < w.seqs.length := (List.getElem?_eq_some_iff.mp hs).1
  unfold updTail
  refine Wp.setSeq_bind ?_
  rcases hp : o.product with _ | p
  · simp only
    refine Wp.pure ⟨rfl, { o with entries := upd }, by rw [List.getElem?_set_self hlt, hp], ⟨fun p h => ?_, Iff.rfl, rfl⟩⟩
    simp only at h; rw [hp] at h; cases h
  · simp only
    obtain ⟨f, hf, p', hp', hP⟩ := hmul p hp
    refine Wp.bind ?_
    refine Wp.mono (getFullUnitary_wp
      (w := { w with seqs := w.seqs.set s { o with entries := upd, product := some p } }) hw.entries he o.dimension) ?_
    rintro res w2 ⟨hres, x', rfl, -, -⟩
    rw [hf] at hres
    subst hres
    simp only
    refine Wp.bind_ok (show PyM.lift (mul p f) _ = (.ok p', _) by rw [hp']; rfl) ?_
    refine Wp.setSeq ⟨rfl, { o with entries := upd, product := some p' }, List.getElem?_set_self (by simpa using hlt),
      ⟨fun q h => ?_, ?_, rfl⟩⟩
    · simp only [Option.some.injEq] at h; subst h; exact hP
    · simp [hp]

theorem saveUndo_val {τ : Arith} {w : World} {s : ℕ} {o : SeqObj} {Pp : Unitary → Prop} (hw : w.WF τ)
    (hs : w.seqs[s]? = some o)
    (h : ∀ p, o.product = some p → ∃ p', Unitary.new τ p.getDimension (some p.getMatrix) = .ok p' ∧ Pp p') :
    Wp (Seq.saveUndoState τ s) (fun res w' => res = .ok () ∧ ∃ o', w'.seqs[s]? = some o' ∧
      (o.product = none → o'.previousProduct = o.previousProduct) ∧
      (o.product ≠ none → ∀ p, o'.previousProduct = some p → Pp p)) w := by
  have hlt : s < w.seqs.length := (List.getElem?_eq_some_iff.mp hs).1
  unfold Seq.saveUndoState
  refine Wp.getSeq_bind hs (Wp.bind ?_)
  refine (deepcopy_wp (hw.seq hs).entries.lt).mono ?_
  rintro res w1 ⟨f, l, rfl, rfl, -, -, -⟩
  simp only
  refine Wp.setSeq_bind ?_
  rcases hp : o.product with _ | p
  · simp only
    exact Wp.pure ⟨rfl, { o with previousEntries := some (o.entries.map f) }, by
      rw [List.getElem?_set_self hlt, hp], fun _ => rfl, fun h => absurd rfl h⟩
  · simp only
    obtain ⟨p', hp', hP⟩ := h p hp
    refine Wp.bind_ok (show PyM.lift (Unitary.new τ p.getDimension (some p.getMatrix)) _ = (.ok p', _) by
      rw [hp']; rfl) ?_
    refine Wp.setSeq ⟨rfl, { o with previousEntries := some (o.entries.map f), previousProduct := some p' }, by
      rw [List.getElem?_set_self (by simpa using hlt), hp], fun h => (by cases h),
      fun _ q hq => ?_⟩
    simp only [Option.some.injEq] at hq; subst hq; exact hP

/-- The stored products after a mutator. -/
structure ValPost (o : SeqObj) (b : Bool) (P Pp : Unitary → Prop) (o' : SeqObj) : Prop where
  prod : ∀ p, o'.product = some p → P p
  noprod : o'.product = none ↔ o.product = none
  keep : b = false ∨ o.product = none → o'.previousProduct = o.previousProduct
  prev : b = true → o.product ≠ none → ∀ p, o'.previousProduct = some p → Pp p

/-- The result of a mutator on the two kinds of sequences. -/
def ValRes (s : ℕ) (o : SeqObj) (b : Bool) (P Pp : Unitary → Prop) (res : Except PyErr Unit) (w' : World) : Prop :=
  (o.isArray = false → res = .ok () ∧ ∃ o', w'.seqs[s]? = some o' ∧ ValPost o b P Pp o') ∧
  (o.isArray = true → res = .error .attributeError ∧ ∃ o', w'.seqs[s]? = some o' ∧
    ValPost o b (fun p => o.product = some p) Pp o')

theorem guard_false_val {w : World} {s : ℕ} {o : SeqObj} {P Pp : Unitary → Prop}
    {k : SeqObj → PyM World Unit} (hs : w.seqs[s]? = some o)
    (hk : o.isArray = false → Wp (k o) (fun res w' => res = .ok () ∧ ∃ o', w'.seqs[s]? = some o' ∧ UpdVal o P o') w) :
    Wp (getSeq s >>= fun o => Seq.requireList o >>= fun _ => k o) (ValRes s o false P Pp) w := by
  refine Wp.getSeq_bind hs ?_
  unfold Seq.requireList
  refine Wp.lift_bind (fun _ ha => ?_) fun err ha => ?_
  · have harr := raiseUnless_eq_ok.mp ha
    refine (hk harr).mono ?_
    rintro res w' ⟨h1, o', h2, h3⟩
    exact ⟨fun _ => ⟨h1, o', h2, h3.prod, h3.noprod, fun _ => h3.keep, fun h => (by cases h)⟩,
      fun h => (by rw [harr] at h; cases h)⟩
  · have harr : o.isArray = true := by
      by_contra h
      rw [raiseUnless_of (by simpa using h)] at ha; cases ha
    have herr : err = .attributeError := by
      rw [raiseUnless_of_not (by simp [harr])] at ha; cases ha; rfl
    subst herr
    exact ⟨fun h => (by rw [harr] at h; cases h),
      fun _ => ⟨rfl, o, hs, fun p h => h, Iff.rfl, fun _ => rfl, fun h => (by cases h)⟩⟩

theorem guard_true_val {τ : Arith} {w : World} {s : ℕ} {o : SeqObj} {P Pp : Unitary → Prop}
    {k : SeqObj → PyM World Unit} (hw : w.WF τ) (hs : w.seqs[s]? = some o)
    (hsave : ∀ p, o.product = some p → ∃ p', Unitary.new τ p.getDimension (some p.getMatrix) = .ok p' ∧ Pp p')
    (hk : o.isArray = false → ∀ w1 o1, Step τ w w1 s o o1 → o1.entries = o.entries → o1.product = o.product →
      Wp (k o1) (fun res w' => res = .ok () ∧ ∃ o', w'.seqs[s]? = some o' ∧ UpdVal o1 P o') w1) :
    Wp (Seq.saveUndoState τ s >>= fun _ => getSeq s >>= fun o => Seq.requireList o >>= fun _ => k o)
      (ValRes s o true P Pp) w := by
  refine Wp.bind (((saveUndo_wp hw hs).and (saveUndo_val hw hs hsave)).mono ?_)
  rintro res w1 ⟨⟨o1, ps, st, he, hp, -⟩, rfl, o2, h2, h3, h4⟩
  have := st.get hs
  rw [this] at h2; cases h2
  simp only
  refine (guard_false_val (P := P) (Pp := Pp) this fun ha =>
    hk (st.arr ▸ ha) w1 o1 st he hp).mono ?_
  rintro res w' ⟨ha, hb⟩
  refine ⟨fun harr => ?_, fun harr => ?_⟩
  · obtain ⟨k1, o', k2, k3⟩ := ha (st.arr.trans harr)
    refine ⟨k1, o', k2, k3.prod, hp ▸ k3.noprod, fun hn => ?_, fun _ hn q hq => ?_⟩
    · rcases hn with hn | hn
      · cases hn
      · rw [k3.keep (.inl rfl), h3 hn]
    · rw [k3.keep (.inl rfl)] at hq
      exact h4 hn q hq
  · obtain ⟨k1, o', k2, k3⟩ := hb (st.arr.trans harr)
    refine ⟨k1, o', k2, fun p h => hp ▸ k3.prod p h, hp ▸ k3.noprod, fun hn => ?_, fun _ hn q hq => ?_⟩
    · rcases hn with hn | hn
      · cases hn
      · rw [k3.keep (.inl rfl), h3 hn]
    · rw [k3.keep (.inl rfl)] at hq
      exact h4 hn q hq

/-! ## The four mutators -/

/-- The re-wrapping of the product in `_save_undo_state` succeeds. -/
def Saves (τ : Arith) (o : SeqObj) (b : Bool) (Pp : Unitary → Prop) : Prop :=
  b = true → ∀ p, o.product = some p → ∃ p', Unitary.new τ p.getDimension (some p.getMatrix) = .ok p' ∧ Pp p'

/-- The update of the product with the full unitary of `x` succeeds. -/
def Updates (τ : Arith) (o : SeqObj) (x : EntryVal) (mul : Unitary → Unitary → Except PyErr Unitary)
    (P : Unitary → Prop) : Prop :=
  ∀ p, o.product = some p → ∃ f, x.fullUnitary τ o.dimension = .ok f ∧ ∃ p', mul p f = .ok p' ∧ P p'

section

variable {τ : Arith} {w : World} {s e : ℕ} {o : SeqObj} {x : EntryObj} {P Pp : Unitary → Prop}

theorem append_tail {upd : List ℕ} {mul : Unitary → Unitary → Except PyErr Unitary} (hw : w.WF τ)
    (hs : w.seqs[s]? = some o) (he : w.entries[e]? = some x) (hmul : Updates τ o x.toVal mul P) {w1 : World} {o1 : SeqObj}
    (st : Step τ w w1 s o o1) (hp : o1.product = o.product) :
    Wp (updTail τ s e upd mul o1) (fun res w' => res = .ok () ∧ ∃ o', w'.seqs[s]? = some o' ∧ UpdVal o1 P o') w1 := by
  obtain ⟨x1, hx1, hx1v⟩ := st.grow e x he
  refine updTail_val (st.wf hw) (st.get hs) hx1 fun p h => ?_
  rw [hx1v, st.dim]
  exact hmul p (hp ▸ h)

theorem appendLast_val (hw : w.WF τ) (hs : w.seqs[s]? = some o) (he : w.entries[e]? = some x)
    (hfit : FitsDim x.toVal o.dimension) (b : Bool) (hsave : Saves τ o b Pp)
    (hmul : Updates τ o x.toVal (fun p u => p.leftMultiply τ u) P) :
    Wp (Seq.appendLast τ s e b) (ValRes s o b P Pp) w := by
  unfold Seq.appendLast
  refine Wp.getSeq_bind hs (Wp.assertIsEntryValid_bind he (fun _ => ?_) fun h => absurd hfit h)
  cases b
  · exact guard_false_val (k := fun o1 => updTail τ s e (o1.entries ++ [e]) (fun p u => p.leftMultiply τ u) o1)
      hs fun _ => append_tail hw hs he hmul (.refl hw hs) rfl
  · exact guard_true_val (k := fun o1 => updTail τ s e (o1.entries ++ [e]) (fun p u => p.leftMultiply τ u) o1)
      hw hs (hsave rfl) fun _ _ _ st _ hp => append_tail hw hs he hmul st hp

theorem appendFirst_val (hw : w.WF τ) (hs : w.seqs[s]? = some o) (he : w.entries[e]? = some x)
    (hfit : FitsDim x.toVal o.dimension) (b : Bool) (hsave : Saves τ o b Pp)
    (hmul : Updates τ o x.toVal (fun p u => p.rightMultiply τ u) P) :
    Wp (Seq.appendFirst τ s e b) (ValRes s o b P Pp) w := by
  unfold Seq.appendFirst
  refine Wp.getSeq_bind hs (Wp.assertIsEntryValid_bind he (fun _ => ?_) fun h => absurd hfit h)
  cases b
  · exact guard_false_val (k := fun o1 => updTail τ s e (e :: o1.entries) (fun p u => p.rightMultiply τ u) o1)
      hs fun _ => append_tail hw hs he hmul (.refl hw hs) rfl
  · exact guard_true_val (k := fun o1 => updTail τ s e (e :: o1.entries) (fun p u => p.rightMultiply τ u) o1)
      hw hs (hsave rfl) fun _ _ _ st _ hp => append_tail hw hs he hmul st hp

theorem removeFirst_val {r : ℕ} {rest : List ℕ} (hw : w.WF τ) (hs : w.seqs[s]? = some o) (hl : o.entries = r :: rest)
    (he : w.entries[r]? = some x) (b : Bool) (hsave : Saves τ o b Pp)
    (hmul : Updates τ o x.toVal (fun p u => u.inverse τ >>= fun i => p.rightMultiply τ i) P) :
    Wp (Seq.removeFirst τ s b) (ValRes s o b P Pp) w := by
  have tail : ∀ w1 o1, Step τ w w1 s o o1 → o1.entries = o.entries → o1.product = o.product →
      Wp (match o1.entries with
        | [] => PyM.raise .indexError
        | removed :: rest => updTail τ s removed rest
            (fun p u => u.inverse τ >>= fun i => p.rightMultiply τ i) o1)
        (fun res w' => res = .ok () ∧ ∃ o', w'.seqs[s]? = some o' ∧ UpdVal o1 P o') w1 := by
    intro w1 o1 st hent hp
    rw [hent, hl]
    exact append_tail hw hs he hmul st hp
  unfold Seq.removeFirst Seq.getLength
  refine Wp.bind (Wp.getSeq_bind hs (Wp.pure ?_))
  simp only [liftBind_eq]
  rw [if_pos (by rw [hl]; simp)]
  cases b
  · exact guard_false_val hs fun _ => tail w o (.refl hw hs) rfl rfl
  · exact guard_true_val hw hs (hsave rfl) fun _ => tail

theorem removeLast_val {r : ℕ} {front : List ℕ} (hw : w.WF τ) (hs : w.seqs[s]? = some o) (hl : o.entries = front ++ [r])
    (he : w.entries[r]? = some x) (b : Bool) (hsave : Saves τ o b Pp)
    (hmul : Updates τ o x.toVal (fun p u => u.inverse τ >>= fun i => p.leftMultiply τ i) P) :
    Wp (Seq.removeLast τ s b) (ValRes s o b P Pp) w := by
  have tail : ∀ w1 o1, Step τ w w1 s o o1 → o1.entries = o.entries → o1.product = o.product →
      Wp (match o1.entries.getLast? with
        | none => PyM.raise .indexError
        | some removed => updTail τ s removed o1.entries.dropLast
            (fun p u => u.inverse τ >>= fun i => p.leftMultiply τ i) o1)
        (fun res w' => res = .ok () ∧ ∃ o', w'.seqs[s]? = some o' ∧ UpdVal o1 P o') w1 := by
    intro w1 o1 st hent hp
    rw [hent, hl, List.getLast?_concat]
    exact append_tail hw hs he hmul st hp
  unfold Seq.removeLast Seq.getLength
  refine Wp.bind (Wp.getSeq_bind hs (Wp.pure ?_))
  simp only [liftBind_eq]
  rw [if_pos (by rw [hl]; simp)]
  cases b
  · exact guard_false_val hs fun _ => tail w o (.refl hw hs) rfl rfl
  · exact guard_true_val hw hs (hsave rfl) fun _ => tail

end

end Stoq
