import Verif.Proofs.Sequence
import Verif.Model.Hamiltonian

/-!
# Sequences without shared entry objects

Whatever the state before, the sequences the library builds contain every entry object at most once.
-/

namespace Stoq

open World

/-- No entry object twice, and only existing ones. -/
def ListApart (N : ℕ) (rs : List ℕ) : Prop := rs.Nodup ∧ ∀ r ∈ rs, r < N

/-- The same for the current and the saved list of a sequence. -/
def SeqObj.Apart (N : ℕ) (o : SeqObj) : Prop :=
  ListApart N o.entries ∧ ∀ ps, o.previousEntries = some ps → ListApart N ps

/-- All sequences made since there were `base` of them. -/
structure Apart (base : ℕ) (w : World) : Prop where
  len : base ≤ w.seqs.length
  seq : ∀ s o, base ≤ s → w.seqs[s]? = some o → o.Apart w.entries.length

/-- If all entry values had the property `P` they still do. -/
def ValsKept (P : EntryVal → Prop) (w w' : World) : Prop :=
  (∀ x ∈ w.entries, P x.toVal) → ∀ x ∈ w'.entries, P x.toVal

/-- The sequences made since there were `base` of them stay apart, and the older ones are not touched. -/
structure Keep (base : ℕ) (P : EntryVal → Prop) (w w' : World) : Prop where
  apart : Apart base w'
  ents : w.entries.length ≤ w'.entries.length
  old : ∀ t, t < base → w'.seqs[t]? = w.seqs[t]?
  vals : ValsKept P w w'

def Keeps (base : ℕ) (P : EntryVal → Prop) {α : Type} (m : PyM World α) : Prop :=
  ∀ w, Apart base w → Wp m (fun _ w' => Keep base P w w') w

theorem ListApart.mono {N N' : ℕ} {rs : List ℕ} (h : ListApart N rs) (hN : N ≤ N') : ListApart N' rs :=
  ⟨h.1, fun r hr => (h.2 r hr).trans_le hN⟩

theorem SeqObj.Apart.mono {N N' : ℕ} {o : SeqObj} (h : o.Apart N) (hN : N ≤ N') : o.Apart N' :=
  ⟨h.1.mono hN, fun ps hps => (h.2 ps hps).mono hN⟩

variable {base : ℕ} {P : EntryVal → Prop} {w w' w'' : World} {α β : Type}

/-- The start of an algorithm. -/
theorem Apart.start (w : World) : Apart w.seqs.length w :=
  ⟨le_rfl, fun s o hs ho => absurd (List.getElem?_eq_some_iff.mp ho).1 (by omega)⟩

theorem Keep.refl (h : Apart base w) : Keep base P w w := ⟨h, le_rfl, fun _ _ => rfl, id⟩

theorem Keep.trans (h : Keep base P w w') (h' : Keep base P w' w'') : Keep base P w w'' := 
  ⟨h'.apart, h.ents.trans h'.ents, fun t ht => (h'.old t ht).trans (h.old t ht), fun hv => h'.vals (h.vals hv)⟩

theorem Keep.grow (h : Apart base w) (hs : w'.seqs = w.seqs) (he : w.entries.length ≤ w'.entries.length)
    (hv : ValsKept P w w') : Keep base P w w' :=
  ⟨⟨by rw [hs]; exact h.len, fun s o hb ho => by rw [hs] at ho; exact (h.seq s o hb ho).mono he⟩, he,
    fun _ _ => by rw [hs], hv⟩

theorem Keeps.same {m : PyM World α} (h : ∀ w, (m w).2.entries = w.entries ∧ (m w).2.seqs = w.seqs) :
    Keeps base P m := fun w hw => Keep.grow hw (h w).2 (by rw [(h w).1]) fun hv => by rw [(h w).1]; exact hv

theorem Keeps.bind {m : PyM World α} {f : α → PyM World β} (hm : Keeps base P m) (hf : ∀ a, Keeps base P (f a)) :
    Keeps base P (m >>= f) := by
  intro w hw
  refine Wp.bind ((hm w hw).mono ?_)
  rintro (e | a) w1 h1
  · exact h1
  · exact (hf a w1 h1.apart).mono fun _ _ h => h1.trans h

theorem Keeps.pure (a : α) : Keeps base P (Pure.pure a : PyM World α) := fun _ hw => Keep.refl hw
theorem Keeps.raise (e : PyErr) : Keeps base P (PyM.raise e : PyM World α) := fun _ hw => Keep.refl hw
theorem Keeps.lift (x : Except PyErr α) : Keeps base P (PyM.lift x : PyM World α) := fun _ hw => Keep.refl hw
theorem Keeps.assert (p : Prop) : Keeps base P (PyM.assert p : PyM World Unit) := fun _ hw => Keep.refl hw
theorem Keeps.withRng (x : PyM Rng α) : Keeps base P (World.withRng x) := Keeps.same fun _ => ⟨rfl, rfl⟩
theorem Keeps.getBeta (c : ℕ) : Keeps base P (Stoq.getBeta c) := Keeps.same fun w => by
  unfold Stoq.getBeta; split <;> exact ⟨rfl, rfl⟩
theorem Keeps.setBeta (c : ℕ) (b : ℝ) : Keeps base P (Stoq.setBeta c b) := Keeps.same fun _ => ⟨rfl, rfl⟩
theorem Keeps.allocBeta (b : ℝ) : Keeps base P (Stoq.allocBeta b) := Keeps.same fun _ => ⟨rfl, rfl⟩
theorem Keeps.getSeq (s : ℕ) : Keeps base P (World.getSeq s) := Keeps.same fun w => by
  unfold World.getSeq; split <;> exact ⟨rfl, rfl⟩
theorem Keeps.getEntry (r : ℕ) : Keeps base P (World.getEntry r) := Keeps.same fun w => by
  unfold World.getEntry; split <;> exact ⟨rfl, rfl⟩

theorem valsKept_set {r : ℕ} {o x : EntryObj} (h : w.entries[r]? = some x) (ho : o.toVal = x.toVal) :
    ValsKept P w { w with entries := w.entries.set r o } := by
  intro hv y hy
  rcases List.mem_or_eq_of_mem_set hy with hy | rfl
  · exact hv y hy
  · rw [ho]; exact hv x (List.mem_of_getElem? h)

/-- Reading a sequence object. -/
theorem getSeq_cases {s : ℕ} {f : SeqObj → PyM World β} {Q : Except PyErr β → World → Prop} (he : Q (.error .dangling) w)
    (h : ∀ o, w.seqs[s]? = some o → Wp (f o) Q w) : Wp (World.getSeq s >>= f) Q w := by
  rcases hs : w.seqs[s]? with _ | o
  · exact Wp.bind_error (getSeq_none hs) he
  · exact Wp.getSeq_bind hs (h o hs)

theorem Keep.setSeq (h : Apart base w) {s : ℕ} (hs : base ≤ s) {o : SeqObj} (ho : o.Apart w.entries.length) :
    Keep base P w { w with seqs := w.seqs.set s o } := by
  refine ⟨⟨by simpa using h.len, fun t o' hb ht => ?_⟩, le_rfl, fun t ht => ?_, id⟩
  swap
  · simp only
    rw [List.getElem?_set_ne (by omega)]
  by_cases hts : s = t
  · subst hts
    have hlt := (List.getElem?_eq_some_iff.mp ht).1
    simp only [List.length_set] at hlt
    simp only [List.getElem?_set_self hlt, Option.some.injEq] at ht
    subst ht
    exact ho
  · simp only [List.getElem?_set_ne hts] at ht
    exact h.seq t o' hb ht

theorem setSeq_self {s : ℕ} {o : SeqObj} {w : World} {x : SeqObj}
    (h : ({ w with seqs := w.seqs.set s o } : World).seqs[s]? = some x) : x = o := by
  have hlt := (List.getElem?_eq_some_iff.mp h).1
  simp only [List.length_set] at hlt
  simp only [List.getElem?_set_self hlt, Option.some.injEq] at h
  exact h.symm

/-! ## Reading -/

theorem getFullUnitary_same (τ : Arith) (r D : ℕ) (w : World) : Wp (Entry.getFullUnitary τ r D) (fun _ w' =>
    w'.entries.length = w.entries.length ∧ w'.seqs = w.seqs ∧ ValsKept P w w') w := by
  unfold Entry.getFullUnitary
  rcases hr : w.entries[r]? with _ | x
  · exact Wp.bind_error (getEntry_none hr) ⟨rfl, rfl, id⟩
  refine Wp.getEntry_bind hr (Wp.lift_bind (fun _ _ => ?_) fun _ _ => ⟨rfl, rfl, id⟩)
  split
  · exact ⟨rfl, rfl, id⟩
  · refine Wp.lift_bind (fun _ _ => ?_) fun _ _ => ⟨rfl, rfl, id⟩
    exact Wp.bind_ok (a := ()) rfl ⟨List.length_set, rfl, valsKept_set hr rfl⟩

theorem Keeps.getFullUnitary (τ : Arith) (r D : ℕ) : Keeps base P (Entry.getFullUnitary τ r D) := by
  intro w hw
  obtain ⟨h1, h2, h3⟩ := getFullUnitary_same (P := P) τ r D w
  exact Keep.grow hw h2 h1.ge h3

theorem Keeps.productLoop (τ : Arith) (D : ℕ) (rs : List ℕ) (acc : Unitary) : Keeps base P (Seq.productLoop τ D rs acc) := by
  induction rs generalizing acc with
  | nil => exact .pure _
  | cons r rs ih => exact (Keeps.getFullUnitary τ r D).bind fun u => (Keeps.lift _).bind fun a => ih a

theorem Keeps.product (τ : Arith) {s : ℕ} (hs : base ≤ s) : Keeps base P (Seq.product τ s) := by
  intro w hw
  unfold Seq.product
  refine getSeq_cases (Keep.refl hw) fun o ho => ?_
  split
  · exact Keep.refl hw
  · refine Wp.lift_bind (fun p _ => ?_) fun e _ => Keep.refl hw
    refine Wp.bind ((Keeps.productLoop (P := P) τ _ _ _ w hw).mono ?_)
    rintro (e | a) w1 h1
    · exact h1
    · exact Wp.setSeq_bind (h1.trans (Keep.setSeq h1.apart hs ((hw.seq s o hs ho).mono h1.ents)))

/-! ## Copies -/

/-- Copying distinct objects gives distinct new objects. -/
theorem deepcopyWith_apart (rs : List ℕ) (memo : List (ℕ × ℕ)) (hnd : rs.Nodup) (hm : ∀ r ∈ rs, memo.lookup r = none)
    (w : World) : Wp (Entry.deepcopyWith rs memo) (fun res w' => w'.seqs = w.seqs ∧ w.entries.length ≤ w'.entries.length ∧
      ValsKept P w w' ∧ ∀ rs', res = .ok rs' → ListApart w'.entries.length rs' ∧ ∀ r ∈ rs', w.entries.length ≤ r) w := by
  induction rs generalizing memo w with
  | nil => exact ⟨rfl, le_rfl, id, fun rs' h => by cases h; exact ⟨⟨by simp, by simp⟩, by simp⟩⟩
  | cons r rs ih =>
    rw [Entry.deepcopyWith, hm r (by simp)]
    rcases hr : w.entries[r]? with _ | o
    · exact Wp.bind_error (getEntry_none hr) ⟨rfl, le_rfl, id, fun _ h => by cases h⟩
    refine Wp.getEntry_bind hr ?_
    refine Wp.bind_ok (a := w.entries.length) (w' := { w with entries := w.entries ++ [o] }) rfl ?_
    obtain ⟨hr1, hnd⟩ := List.nodup_cons.mp hnd
    refine Wp.bind ((ih ((r, w.entries.length) :: memo) hnd (fun x hx => ?_) _).mono ?_)
    · have : (x == r) = false := by
        rw [beq_eq_false_iff_ne]
        rintro rfl; exact hr1 hx
      rw [List.lookup_cons, this]
      exact hm x (by simp [hx])
    · have hv0 : ValsKept P w { w with entries := w.entries ++ [o] } := by
        intro hv x hx
        rcases List.mem_append.mp hx with hx | hx
        · exact hv x hx
        · rw [List.mem_singleton] at hx; subst hx; exact hv _ (List.mem_of_getElem? hr)
      rintro (e | rs') w1 ⟨h1, h2, hv, h3⟩
      · exact ⟨h1, by simp at h2; omega, fun h => hv (hv0 h), fun _ h => by cases h⟩
      · simp only [List.length_append, List.length_singleton] at h2 h3
        obtain ⟨h4, h5⟩ := h3 rs' rfl
        refine Wp.pure ⟨h1, by omega, fun h => hv (hv0 h), fun rs'' h => ?_⟩
        cases h
        refine ⟨⟨?_, ?_⟩, ?_⟩
        · rw [List.nodup_cons]
          exact ⟨fun hm => by have := h5 _ hm; omega, h4.1⟩
        · intro x hx
          rcases List.mem_cons.mp hx with rfl | hx
          · omega
          · exact h4.2 x hx
        · intro x hx
          rcases List.mem_cons.mp hx with rfl | hx
          · exact le_rfl
          · have := h5 x hx; omega

/-- Copies of an unshared list. -/
theorem deepcopy_apart {rs : List ℕ} (hnd : rs.Nodup) (hw : Apart base w) : Wp (Entry.deepcopy rs) (fun res w' =>
    Keep base P w w' ∧ w'.seqs = w.seqs ∧ ∀ rs', res = .ok rs' → ListApart w'.entries.length rs' ∧ ∀ r ∈ rs', w.entries.length ≤ r) w :=
  (deepcopyWith_apart rs [] hnd (fun _ _ => rfl) w).mono fun _ _ ⟨h1, h2, hv, h3⟩ =>
    ⟨Keep.grow hw h1 h2 hv, h1, h3⟩

/-- `_save_undo_state` keeps the entries of the sequence. -/
theorem saveUndo_apart (τ : Arith) {s : ℕ} (hs : base ≤ s) (hw : Apart base w) : Wp (Seq.saveUndoState τ s) (fun _ w' =>
    Keep base P w w' ∧ ∀ o', w'.seqs[s]? = some o' → ∃ o, w.seqs[s]? = some o ∧ o'.entries = o.entries) w := by
  unfold Seq.saveUndoState
  refine getSeq_cases ⟨Keep.refl hw, fun o h => ⟨o, h, rfl⟩⟩ fun o ho => ?_
  have hoa := hw.seq s o hs ho
  refine Wp.bind ((deepcopy_apart (P := P) hoa.1.1 hw).mono ?_)
  rintro (e | cs) w1 ⟨h1, h2, h3⟩
  · exact ⟨h1, fun o' h => ⟨o, ho, by rw [h2, ho] at h; cases h; rfl⟩⟩
  · have hca := (h3 cs rfl).1
    have k1 : Keep base P w { w1 with seqs := w1.seqs.set s { o with previousEntries := some cs } } :=
      h1.trans (Keep.setSeq h1.apart hs ⟨hoa.1.mono h1.ents, fun ps h => by cases h; exact hca⟩)
    refine Wp.setSeq_bind ?_
    split
    · exact ⟨k1, fun o' h => ⟨o, ho, by rw [setSeq_self h]⟩⟩
    · refine Wp.lift_bind (fun p _ => ?_) fun e _ => ⟨k1, fun o' h => ⟨o, ho, by rw [setSeq_self h]⟩⟩
      refine Wp.setSeq ⟨k1.trans (Keep.setSeq k1.apart hs ⟨hoa.1.mono h1.ents, fun ps h => by cases h; exact hca⟩),
        fun o' h => ⟨o, ho, by rw [setSeq_self h]⟩⟩

/-! ## Changes -/

/-- The elements of the list at `s` afterwards. -/
def Added (s : ℕ) (es : List ℕ) (w w' : World) : Prop :=
  ∀ o', w'.seqs[s]? = some o' → ∀ r ∈ o'.entries, r ∈ es ∨ ∃ o, w.seqs[s]? = some o ∧ r ∈ o.entries

theorem Added.refl (s : ℕ) (es : List ℕ) (w : World) : Added s es w w := fun o ho _ hr => .inr ⟨o, ho, hr⟩

theorem Keeps.assertIsEntryValid (D e : ℕ) : Keeps base P (Seq.assertIsEntryValid D e) := by
  unfold Seq.assertIsEntryValid
  exact (Keeps.getEntry e).bind fun o => (Keeps.assert _).bind fun _ => .assert _

theorem assertIsEntryValid_state (D e : ℕ) (w : World) : (Seq.assertIsEntryValid D e w).2 = w := by
  unfold Seq.assertIsEntryValid
  have : Wp (do
    let o ← World.getEntry e
    PyM.assert (o.toVal.getDimension ≤ D)
    PyM.assert (2 ^ (listMax o.toVal.applyTo + 1) ≤ D)) (fun _ w' => w' = w) w := by
    rcases hr : w.entries[e]? with _ | o
    · exact Wp.bind_error (getEntry_none hr) rfl
    · exact Wp.getEntry_bind hr (Wp.lift_bind (fun _ _ => rfl) fun _ _ => rfl)
  exact this

/-- What a change of the list at `s` has to do. -/
def ApartPost (base s : ℕ) (P : EntryVal → Prop) (es : List ℕ) (w w' : World) : Prop := Keep base P w w' ∧ Added s es w w'

/-- A new object for the sequence at `s`. -/
def NewAt (s e : ℕ) (w : World) : Prop := e < w.entries.length ∧ ∀ o, w.seqs[s]? = some o → e ∉ o.entries

theorem ApartPost.refl {s : ℕ} (es : List ℕ) (hw : Apart base w) : ApartPost base s P es w w :=
  ⟨Keep.refl hw, Added.refl _ _ _⟩

theorem updTail_apart (τ : Arith) {s e : ℕ} {es upd : List ℕ} {mul : Unitary → Unitary → Except PyErr Unitary} {o : SeqObj}
    (hs : base ≤ s) (hw : Apart base w) (ho : w.seqs[s]? = some o) (hu : ListApart w.entries.length upd)
    (hadd : ∀ r ∈ upd, r ∈ es ∨ r ∈ o.entries) :
    Wp (updTail τ s e upd mul o) (fun _ w' => ApartPost base s P es w w') w := by
  have hoa := hw.seq s o hs ho
  have add : ∀ (w1 : World) (o1 : SeqObj), o1.entries = upd →
      Added s es w { w1 with seqs := w1.seqs.set s o1 } := by
    intro w1 o1 h1 o' ho' r hr
    rw [setSeq_self ho', h1] at hr
    rcases hadd r hr with h | h
    · exact .inl h
    · exact .inr ⟨o, ho, h⟩
  have k1 : Keep base P w { w with seqs := w.seqs.set s { o with entries := upd } } := Keep.setSeq hw hs ⟨hu, hoa.2⟩
  unfold updTail
  refine Wp.setSeq_bind ?_
  split
  · exact ⟨k1, add w { o with entries := upd } rfl⟩
  · have hlt := (List.getElem?_eq_some_iff.mp ho).1
    have hfull := getFullUnitary_same (P := P) τ e o.dimension { w with seqs := w.seqs.set s { o with entries := upd } }
    refine Wp.bind (hfull.mono ?_)
    rintro (err | u) w2 ⟨h1, h2, hv⟩
    · exact ⟨k1.trans (Keep.grow k1.apart h2 h1.ge hv), fun o' ho' => add w { o with entries := upd } rfl o' (by rw [← ho', h2])⟩
    · have k2 : Keep base P w w2 := k1.trans (Keep.grow k1.apart h2 h1.ge hv)
      refine Wp.lift_bind (fun p _ => ?_) fun err _ =>
        ⟨k2, fun o' ho' => add w { o with entries := upd } rfl o' (by rw [← ho', h2])⟩
      refine Wp.setSeq ⟨k2.trans (Keep.setSeq k2.apart hs ?_), add w2 _ rfl⟩
      rw [h1]
      exact ⟨hu, hoa.2⟩

section

variable {s : ℕ} {es : List ℕ} {k : SeqObj → PyM World Unit}

/-- The work after the undo state has been saved. -/
def WorkOk (base s : ℕ) (P : EntryVal → Prop) (es : List ℕ) (w : World) (k : SeqObj → PyM World Unit) : Prop :=
  ∀ w1 o1, Keep base P w w1 → w1.seqs[s]? = some o1 → (∃ o, w.seqs[s]? = some o ∧ o1.entries = o.entries) →
    Wp (k o1) (fun _ w' => ApartPost base s P es w1 w') w1

theorem guard_false_apart (hw : Apart base w) (hk : WorkOk base s P es w k) :
    Wp (getSeq s >>= fun o => Seq.requireList o >>= fun _ => k o) (fun _ w' => ApartPost base s P es w w') w := by
  refine getSeq_cases (ApartPost.refl es hw) fun o ho => ?_
  unfold Seq.requireList
  exact Wp.lift_bind (fun _ _ => hk w o (Keep.refl hw) ho ⟨o, ho, rfl⟩) fun _ _ => ApartPost.refl es hw

theorem guard_true_apart {τ : Arith} (hs : base ≤ s) (hw : Apart base w) (hk : WorkOk base s P es w k) :
    Wp (Seq.saveUndoState τ s >>= fun _ => getSeq s >>= fun o => Seq.requireList o >>= fun _ => k o)
      (fun _ w' => ApartPost base s P es w w') w := by
  refine Wp.bind ((saveUndo_apart (P := P) τ hs hw).mono ?_)
  have tr : ∀ w1 w2, (∀ o', w1.seqs[s]? = some o' → ∃ o, w.seqs[s]? = some o ∧ o'.entries = o.entries) →
      Added s es w1 w2 → Added s es w w2 := by
    intro w1 w2 h h' o' ho' r hr
    rcases h' o' ho' r hr with h1 | ⟨o1, h1, h2⟩
    · exact .inl h1
    · obtain ⟨o, h3, h4⟩ := h o1 h1
      exact .inr ⟨o, h3, by rw [← h4]; exact h2⟩
  rintro (e | u) w1 ⟨h1, h2⟩
  · exact ⟨h1, tr w1 w1 h2 (Added.refl _ _ _)⟩
  · refine (guard_false_apart (es := es) h1.apart (k := k) ?_).mono fun _ w2 h => ⟨h1.trans h.1, tr w1 w2 h2 h.2⟩
    intro w3 o3 k3 ho3 ⟨o1, ho1, he⟩
    obtain ⟨o, ho, he'⟩ := h2 o1 ho1
    exact hk w3 o3 (h1.trans k3) ho3 ⟨o, ho, he.trans he'⟩

end

section

variable {s e : ℕ} (τ : Arith)

theorem assertIsEntryValid_bind {D : ℕ} {f : PyM World Unit} {Q : World → Prop} (h : Q w)
    (hf : Wp f (fun _ w' => Q w') w) : Wp (Seq.assertIsEntryValid D e >>= fun _ => f) (fun _ w' => Q w') w := by
  refine Wp.bind ?_
  have := assertIsEntryValid_state D e w
  unfold Wp
  rw [this]
  rcases (Seq.assertIsEntryValid D e w).1 with err | u
  · exact h
  · exact hf

/-- Appending a new object. -/
theorem appendLast_apart (hs : base ≤ s) (hw : Apart base w) (he : NewAt s e w) (b : Bool) :
    Wp (Seq.appendLast τ s e b) (fun _ w' => ApartPost base s P [e] w w') w := by
  have hk : WorkOk base s P [e] w fun o1 => updTail τ s e (o1.entries ++ [e]) (fun p u => p.leftMultiply τ u) o1 := by
    intro w1 o1 k1 ho1 ⟨o, ho, heq⟩
    have h1 := (k1.apart.seq s o1 hs ho1).1
    refine updTail_apart τ hs k1.apart ho1 ⟨?_, ?_⟩ ?_
    · rw [List.nodup_append]
      refine ⟨h1.1, by simp, ?_⟩
      intro a ha b hb
      rw [List.mem_singleton] at hb
      subst hb
      rintro rfl
      rw [heq] at ha
      exact he.2 o ho ha
    · intro r hr
      rcases List.mem_append.mp hr with hr | hr
      · exact h1.2 r hr
      · rw [List.mem_singleton] at hr; subst hr; exact he.1.trans_le k1.ents
    · intro r hr
      rcases List.mem_append.mp hr with hr | hr
      · exact .inr hr
      · exact .inl hr
  unfold Seq.appendLast
  refine getSeq_cases (ApartPost.refl _ hw) fun o ho => assertIsEntryValid_bind (ApartPost.refl _ hw) ?_
  cases b
  · exact guard_false_apart hw hk
  · exact guard_true_apart hs hw hk

theorem appendFirst_apart (hs : base ≤ s) (hw : Apart base w) (he : NewAt s e w) (b : Bool) :
    Wp (Seq.appendFirst τ s e b) (fun _ w' => ApartPost base s P [e] w w') w := by
  have hk : WorkOk base s P [e] w fun o1 => updTail τ s e (e :: o1.entries) (fun p u => p.rightMultiply τ u) o1 := by
    intro w1 o1 k1 ho1 ⟨o, ho, heq⟩
    have h1 := (k1.apart.seq s o1 hs ho1).1
    refine updTail_apart τ hs k1.apart ho1 ⟨?_, ?_⟩ ?_
    · rw [List.nodup_cons]
      exact ⟨by rw [heq]; exact he.2 o ho, h1.1⟩
    · intro r hr
      rcases List.mem_cons.mp hr with rfl | hr
      · exact he.1.trans_le k1.ents
      · exact h1.2 r hr
    · intro r hr
      rcases List.mem_cons.mp hr with rfl | hr
      · exact .inl (by simp)
      · exact .inr hr
  unfold Seq.appendFirst
  refine getSeq_cases (ApartPost.refl _ hw) fun o ho => assertIsEntryValid_bind (ApartPost.refl _ hw) ?_
  cases b
  · exact guard_false_apart hw hk
  · exact guard_true_apart hs hw hk

theorem ListApart.sub {N : ℕ} {l l' : List ℕ} (h : ListApart N l) (hs : l'.Sublist l) : ListApart N l' :=
  ⟨h.1.sublist hs, fun r hr => h.2 r (hs.subset hr)⟩

theorem removeFirst_apart (hs : base ≤ s) (hw : Apart base w) (b : Bool) :
    Wp (Seq.removeFirst τ s b) (fun _ w' => ApartPost base s P [] w w') w := by
  have hk : WorkOk base s P [] w fun o1 => match o1.entries with
        | [] => PyM.raise .indexError
        | removed :: rest => updTail τ s removed rest
            (fun p u => u.inverse τ >>= fun i => p.rightMultiply τ i) o1 := by
    intro w1 o1 k1 ho1 _
    have h1 := (k1.apart.seq s o1 hs ho1).1
    beta_reduce
    split
    · exact ApartPost.refl _ k1.apart
    · rename_i r rest hl
      exact updTail_apart τ hs k1.apart ho1 (h1.sub (by rw [hl]; exact List.sublist_cons_self _ _))
        fun x hx => .inr (by rw [hl]; simp [hx])
  unfold Seq.removeFirst Seq.getLength
  refine Wp.bind (getSeq_cases (ApartPost.refl _ hw) fun o ho => Wp.pure ?_)
  simp only [liftBind_eq]
  split
  · cases b
    · exact guard_false_apart hw hk
    · exact guard_true_apart hs hw hk
  · exact ApartPost.refl _ hw

theorem removeLast_apart (hs : base ≤ s) (hw : Apart base w) (b : Bool) :
    Wp (Seq.removeLast τ s b) (fun _ w' => ApartPost base s P [] w w') w := by
  have hk : WorkOk base s P [] w fun o1 => match o1.entries.getLast? with
        | none => PyM.raise .indexError
        | some removed => updTail τ s removed o1.entries.dropLast
            (fun p u => u.inverse τ >>= fun i => p.leftMultiply τ i) o1 := by
    intro w1 o1 k1 ho1 _
    have h1 := (k1.apart.seq s o1 hs ho1).1
    beta_reduce
    split
    · exact ApartPost.refl _ k1.apart
    · exact updTail_apart τ hs k1.apart ho1 (h1.sub (List.dropLast_sublist _))
        fun x hx => .inr (List.dropLast_subset _ hx)
  unfold Seq.removeLast Seq.getLength
  refine Wp.bind (getSeq_cases (ApartPost.refl _ hw) fun o ho => Wp.pure ?_)
  simp only [liftBind_eq]
  split
  · cases b
    · exact guard_false_apart hw hk
    · exact guard_true_apart hs hw hk
  · exact ApartPost.refl _ hw

theorem undo_keeps (hs : base ≤ s) : Keeps base P (Seq.undo s) := by
  intro w hw
  unfold Seq.undo
  refine getSeq_cases (Keep.refl hw) fun o ho => Wp.lift_bind (fun _ _ => ?_) fun _ _ => Keep.refl hw
  have hoa := hw.seq s o hs ho
  refine Wp.setSeq (Keep.setSeq hw hs ⟨?_, fun ps h => by cases h⟩)
  rcases hp : o.previousEntries with _ | ps
  · exact ⟨by simp, by simp⟩
  · exact hoa.2 ps hp

end

end Stoq
