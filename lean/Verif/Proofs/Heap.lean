import Verif.Proofs.Embed
import Verif.Model.Sequence

/-! Entry objects on the heap: immutability of their values, cache coherence, deep copies. -/

namespace Stoq

open World

/-- Outcome and final state of `m` started in `w` satisfy `Q`. -/
def Wp {σ α : Type} (m : PyM σ α) (Q : Except PyErr α → σ → Prop) (w : σ) : Prop := Q (m w).1 (m w).2

section Wp

variable {σ α β : Type} {w : σ}

theorem Wp.mono {m : PyM σ α} {Q Q' : Except PyErr α → σ → Prop} (h : Wp m Q w)
    (hQ : ∀ r w', Q r w' → Q' r w') : Wp m Q' w := hQ _ _ h

theorem Wp.bind {m : PyM σ α} {f : α → PyM σ β} {Q : Except PyErr β → σ → Prop}
    (h : Wp m (fun r w' => match r with | .ok a => Wp (f a) Q w' | .error e => Q (.error e) w') w) :
    Wp (m >>= f) Q w := by
  unfold Wp at *
  rw [PyM.bind_apply]
  rcases hm : m w with ⟨_ | _, _⟩ <;> rw [hm] at h <;> exact h

theorem Wp.of_eq {m : PyM σ α} {Q : Except PyErr α → σ → Prop} {r : Except PyErr α} {w' : σ}
    (h : m w = (r, w')) (hQ : Q r w') : Wp m Q w := by unfold Wp; rw [h]; exact hQ

theorem Wp.bind_ok {m : PyM σ α} {f : α → PyM σ β} {Q : Except PyErr β → σ → Prop} {a : α} {w' : σ}
    (h : m w = (.ok a, w')) (hQ : Wp (f a) Q w') : Wp (m >>= f) Q w := by
  unfold Wp at *; rw [PyM.bind_of_ok h]; exact hQ

theorem Wp.bind_error {m : PyM σ α} {f : α → PyM σ β} {Q : Except PyErr β → σ → Prop} {e : PyErr} {w' : σ}
    (h : m w = (.error e, w')) (hQ : Q (.error e) w') : Wp (m >>= f) Q w := by
  unfold Wp at *; rw [PyM.bind_of_error h]; exact hQ

theorem Wp.lift_bind {x : Except PyErr α} {f : α → PyM σ β} {Q : Except PyErr β → σ → Prop}
    (hok : ∀ a, x = .ok a → Wp (f a) Q w) (herr : ∀ e, x = .error e → Q (.error e) w) :
    Wp (PyM.lift x >>= f) Q w := by
  rcases x with e | a
  · exact Wp.bind_error rfl (herr e rfl)
  · exact Wp.bind_ok rfl (hok a rfl)

theorem Wp.assert_bind {p : Prop} {f : Unit → PyM σ β} {Q : Except PyErr β → σ → Prop}
    (hok : p → Wp (f ()) Q w) (herr : ¬ p → Q (.error .assertion) w) :
    Wp (PyM.assert p >>= f) Q w := by
  by_cases h : p
  · exact Wp.bind_ok (PyM.assert_of h w) (hok h)
  · exact Wp.bind_error (PyM.assert_of_not h w) (herr h)

theorem Wp.pure {a : α} {Q : Except PyErr α → σ → Prop} (h : Q (.ok a) w) : Wp (Pure.pure a) Q w := h

theorem Wp.run {m : PyM σ α} {Q : Except PyErr α → σ → Prop} {r : Except PyErr α} {w' : σ}
    (h : Wp m Q w) (hm : m w = (r, w')) : Q r w' := by unfold Wp at h; rwa [hm] at h

end Wp

/-! ## Primitive heap operations -/

section Prim

variable {w : World}

theorem getEntry_some {r : Ref} {o : EntryObj} (h : w.entries[r]? = some o) : getEntry r w = (.ok o, w) := by
  simp [getEntry, h]
theorem getSeq_some {s : SRef} {o : SeqObj} (h : w.seqs[s]? = some o) : getSeq s w = (.ok o, w) := by
  simp [getSeq, h]
theorem getEntry_none {r : Ref} (h : w.entries[r]? = none) : getEntry r w = (.error .dangling, w) := by
  simp [getEntry, h]
theorem getSeq_none {s : SRef} (h : w.seqs[s]? = none) : getSeq s w = (.error .dangling, w) := by
  simp [getSeq, h]

theorem Wp.getSeq_bind {β : Type} {s : SRef} {o : SeqObj} {f : SeqObj → PyM World β}
    {Q : Except PyErr β → World → Prop} (h : w.seqs[s]? = some o) (hQ : Wp (f o) Q w) :
    Wp (getSeq s >>= f) Q w := Wp.bind_ok (getSeq_some h) hQ

theorem Wp.getEntry_bind {β : Type} {r : Ref} {o : EntryObj} {f : EntryObj → PyM World β}
    {Q : Except PyErr β → World → Prop} (h : w.entries[r]? = some o) (hQ : Wp (f o) Q w) :
    Wp (getEntry r >>= f) Q w := Wp.bind_ok (getEntry_some h) hQ

theorem Wp.setSeq_bind {β : Type} {s : SRef} {o : SeqObj} {f : Unit → PyM World β}
    {Q : Except PyErr β → World → Prop} (hQ : Wp (f ()) Q { w with seqs := w.seqs.set s o }) :
    Wp (setSeq s o >>= f) Q w := Wp.bind_ok rfl hQ

theorem Wp.setSeq {s : SRef} {o : SeqObj} {Q : Except PyErr Unit → World → Prop}
    (hQ : Q (.ok ()) { w with seqs := w.seqs.set s o }) : Wp (setSeq s o) Q w := hQ

end Prim

/-! ## Growth of the entry heap -/

/-- The entry heap grows and the values of existing objects do not change. -/
def Grow (es es' : List EntryObj) : Prop :=
  ∀ (r : ℕ) (o : EntryObj), es[r]? = some o → ∃ o' : EntryObj, es'[r]? = some o' ∧ o'.toVal = o.toVal

/-- No new values appear. -/
def NoNew (es es' : List EntryObj) : Prop := ∀ o' ∈ es', ∃ o ∈ es, o'.toVal = o.toVal

theorem Grow.refl (es : List EntryObj) : Grow es es := fun _ o h => ⟨o, h, rfl⟩
theorem Grow.trans {a b c : List EntryObj} (h : Grow a b) (h' : Grow b c) : Grow a c := by
  intro r o ho
  obtain ⟨o1, h1, e1⟩ := h r o ho
  obtain ⟨o2, h2, e2⟩ := h' r o1 h1
  exact ⟨o2, h2, e2.trans e1⟩
theorem Grow.append (es l : List EntryObj) : Grow es (es ++ l) := by
  intro r o ho
  exact ⟨o, by rw [List.getElem?_append_left (List.getElem?_eq_some_iff.mp ho).1]; exact ho, rfl⟩
theorem Grow.set {es : List EntryObj} {r : Ref} {o o' : EntryObj} (h : es[r]? = some o)
    (hv : o'.toVal = o.toVal) : Grow es (es.set r o') := by
  intro i x hx
  by_cases hi : r = i
  · subst hi
    rw [h] at hx; cases hx
    exact ⟨o', by simp [(List.getElem?_eq_some_iff.mp h).1], hv⟩
  · exact ⟨x, by rw [List.getElem?_set_ne hi]; exact hx, rfl⟩

theorem NoNew.refl (es : List EntryObj) : NoNew es es := fun o h => ⟨o, h, rfl⟩
theorem NoNew.trans {a b c : List EntryObj} (h : NoNew a b) (h' : NoNew b c) : NoNew a c := by
  intro o ho
  obtain ⟨o1, h1, e1⟩ := h' o ho
  obtain ⟨o2, h2, e2⟩ := h o1 h1
  exact ⟨o2, h2, e1.trans e2⟩
theorem NoNew.append {es l : List EntryObj} (h : ∀ o ∈ l, ∃ o' ∈ es, o.toVal = o'.toVal) :
    NoNew es (es ++ l) := by
  intro o ho
  rcases List.mem_append.mp ho with ho | ho
  · exact ⟨o, ho, rfl⟩
  · exact h o ho
theorem NoNew.set {es : List EntryObj} {r : Ref} {o o' : EntryObj} (h : es[r]? = some o)
    (hv : o'.toVal = o.toVal) : NoNew es (es.set r o') := by
  intro x hx
  rcases List.mem_or_eq_of_mem_set hx with hx | rfl
  · exact ⟨x, hx, rfl⟩
  · exact ⟨o, List.mem_of_getElem? h, hv⟩

theorem NoNew.forall {es es' : List EntryObj} (h : NoNew es es') {P : EntryVal → Prop}
    (hP : ∀ o ∈ es, P o.toVal) : ∀ o ∈ es', P o.toVal := by
  intro o ho
  obtain ⟨o', ho', e⟩ := h o ho
  exact e ▸ hP o' ho'

/-- Values of a list of references. -/
def valsOf (es : List EntryObj) (rs : List Ref) : List EntryVal :=
  rs.filterMap fun r => es[r]?.map EntryObj.toVal

theorem vals_eq (w : World) (rs : List Ref) : w.vals rs = valsOf w.entries rs := rfl

/-- The entry passes `_assert_is_entry_valid`. -/
def FitsDim (e : EntryVal) (D : ℕ) : Prop := e.getDimension ≤ D ∧ 2 ^ (listMax e.applyTo + 1) ≤ D

/-- All references are valid and their entries fit. -/
def RefsOk (es : List EntryObj) (D : ℕ) (rs : List Ref) : Prop :=
  ∀ r ∈ rs, ∃ o, es[r]? = some o ∧ FitsDim o.toVal D

theorem RefsOk.grow {es es' : List EntryObj} {D : ℕ} {rs : List Ref} (h : RefsOk es D rs)
    (hg : Grow es es') : RefsOk es' D rs := by
  intro r hr
  obtain ⟨o, ho, hf⟩ := h r hr
  obtain ⟨o', ho', e⟩ := hg r o ho
  exact ⟨o', ho', e ▸ hf⟩

theorem valsOf_grow {es es' : List EntryObj} {rs : List Ref} (h : ∀ r ∈ rs, r < es.length)
    (hg : Grow es es') : valsOf es' rs = valsOf es rs := by
  unfold valsOf
  apply List.filterMap_congr
  intro r hr
  have hr' := h r hr
  obtain ⟨o', ho', e⟩ := hg r _ (List.getElem?_eq_getElem hr')
  rw [ho', List.getElem?_eq_getElem hr']; simp [e]

theorem RefsOk.lt {es : List EntryObj} {D : ℕ} {rs : List Ref} (h : RefsOk es D rs) :
    ∀ r ∈ rs, r < es.length := by
  intro r hr
  obtain ⟨o, ho, -⟩ := h r hr
  exact (List.getElem?_eq_some_iff.mp ho).1

theorem RefsOk.vals_grow {es es' : List EntryObj} {D : ℕ} {rs : List Ref} (h : RefsOk es D rs)
    (hg : Grow es es') : valsOf es' rs = valsOf es rs := valsOf_grow h.lt hg

theorem valsOf_append (es : List EntryObj) (rs rs' : List Ref) :
    valsOf es (rs ++ rs') = valsOf es rs ++ valsOf es rs' := List.filterMap_append

theorem valsOf_cons {es : List EntryObj} {r : Ref} {o : EntryObj} (h : es[r]? = some o) (rs : List Ref) :
    valsOf es (r :: rs) = o.toVal :: valsOf es rs := by simp [valsOf, h]

@[simp] theorem valsOf_nil (es : List EntryObj) : valsOf es [] = [] := rfl

theorem valsOf_length {es : List EntryObj} {rs : List Ref} (h : ∀ r ∈ rs, r < es.length) :
    (valsOf es rs).length = rs.length := by
  induction rs with
  | nil => rfl
  | cons r rs ih =>
    rw [valsOf_cons (List.getElem?_eq_getElem (h r (by simp)))]
    simp [ih fun x hx => h x (by simp [hx])]

theorem valsOf_reverse (es : List EntryObj) (rs : List Ref) :
    valsOf es rs.reverse = (valsOf es rs).reverse := List.filterMap_reverse

theorem valsOf_map {es es' : List EntryObj} {rs : List Ref} {f : Ref → Ref}
    (h : ∀ r ∈ rs, (es'[f r]?).map EntryObj.toVal = (es[r]?).map EntryObj.toVal) :
    valsOf es' (rs.map f) = valsOf es rs := by
  unfold valsOf
  rw [List.filterMap_map]
  apply List.filterMap_congr
  intro r hr
  exact h r hr

theorem mem_valsOf {es : List EntryObj} {rs : List Ref} {e : EntryVal} :
    e ∈ valsOf es rs ↔ ∃ r ∈ rs, ∃ o, es[r]? = some o ∧ o.toVal = e := by
  simp [valsOf, List.mem_filterMap, Option.map_eq_some_iff]

/-! ## Cache coherence -/

/-- Well-formed entry object: the cache holds what a fresh computation gives. -/
structure EntryObj.Ok (τ : Arith) (o : EntryObj) : Prop where
  wf : o.toVal.WF
  cache : ∀ D u, (D, u) ∈ o.cache → o.toVal.fullUnitary τ D = .ok u

def EntriesOk (τ : Arith) (es : List EntryObj) : Prop := ∀ o ∈ es, o.Ok τ

theorem EntriesOk.set {τ : Arith} {es : List EntryObj} (h : EntriesOk τ es) {r : Ref} {o : EntryObj}
    (ho : o.Ok τ) : EntriesOk τ (es.set r o) := by
  intro x hx
  rcases List.mem_or_eq_of_mem_set hx with hx | rfl
  · exact h x hx
  · exact ho

theorem EntriesOk.append {τ : Arith} {es l : List EntryObj} (h : EntriesOk τ es) (hl : EntriesOk τ l) :
    EntriesOk τ (es ++ l) := by
  intro x hx
  rcases List.mem_append.mp hx with hx | hx
  · exact h x hx
  · exact hl x hx

theorem lookup_mem {α : Type} {l : List (ℕ × α)} {k : ℕ} {a : α} (h : l.lookup k = some a) : (k, a) ∈ l := by
  induction l with
  | nil => simp at h
  | cons x l ih =>
    obtain ⟨k', a'⟩ := x
    rw [List.lookup_cons] at h
    by_cases hk : k == k'
    · simp only [hk, Option.some.injEq] at h
      rw [beq_iff_eq] at hk
      subst hk h; simp
    · simp only [hk] at h
      exact List.mem_cons_of_mem _ (ih h)

/-- `get_full_unitary` returns what a fresh computation returns, and only touches the cache. -/
theorem getFullUnitary_wp {τ : Arith} {w : World} (hw : EntriesOk τ w.entries) {r : Ref} {o : EntryObj}
    (ho : w.entries[r]? = some o) (D : ℕ) :
    Wp (Entry.getFullUnitary τ r D) (fun res w' => res = o.toVal.fullUnitary τ D ∧
      ∃ o', w' = { w with entries := w.entries.set r o' } ∧ o'.toVal = o.toVal ∧ o'.Ok τ) w := by
  have hok := hw o (List.mem_of_getElem? ho)
  have hsame : w = { w with entries := w.entries.set r o } := by
    have : w.entries.set r o = w.entries := by
      obtain ⟨h1, h2⟩ := List.getElem?_eq_some_iff.mp ho
      rw [← h2, List.set_getElem_self]
    rw [this]
  unfold Entry.getFullUnitary
  refine Wp.getEntry_bind ho (Wp.assert_bind (fun hD => ?_) fun hD => ?_)
  · rcases hl : o.cache.lookup D with _ | u
    · simp only
      refine Wp.lift_bind (fun u hu => ?_) fun e he => ?_
      · refine Wp.bind_ok rfl ?_
        refine ⟨hu.symm, _, rfl, rfl, hok.wf, ?_⟩
        intro D' u' h'
        rcases List.mem_cons.mp h' with h' | h'
        · cases h'; exact hu
        · exact hok.cache D' u' h'
      · exact ⟨he.symm, o, hsame, rfl, hok⟩
    · exact ⟨(hok.cache D u (lookup_mem hl)).symm, o, hsame, rfl, hok⟩
  · refine ⟨?_, o, hsame, rfl, hok⟩
    unfold EntryVal.fullUnitary
    rw [assertE_of_not hD]; rfl

/-! ## Deep copies -/

/-- `copy.deepcopy` of a list of entries: fresh objects with the same contents and the same sharing. -/
theorem deepcopyWith_wp (rs : List Ref) (memo : List (Ref × Ref)) (N : ℕ) (w : World)
    (hrs : ∀ r ∈ rs, r < w.entries.length) (hN : N ≤ w.entries.length)
    (hmemo : ∀ r r', memo.lookup r = some r' →
      N ≤ r' ∧ r' < w.entries.length ∧ w.entries[r']? = w.entries[r]?)
    (hinj : ∀ r1 r2 x, memo.lookup r1 = some x → memo.lookup r2 = some x → r1 = r2) :
    Wp (Entry.deepcopyWith rs memo) (fun res w' => ∃ (f : Ref → Ref) (l : List EntryObj),
      res = .ok (rs.map f) ∧ w' = { w with entries := w.entries ++ l } ∧
      (∀ o ∈ l, o ∈ w.entries) ∧
      (∀ r r', memo.lookup r = some r' → f r = r') ∧
      (∀ r1 r2, (r1 ∈ rs ∨ memo.lookup r1 ≠ none) → (r2 ∈ rs ∨ memo.lookup r2 ≠ none) →
        f r1 = f r2 → r1 = r2) ∧
      (∀ r ∈ rs, N ≤ f r ∧ (w.entries ++ l)[f r]? = w.entries[r]?)) w := by
  induction rs generalizing memo w with
  | nil =>
    unfold Entry.deepcopyWith
    refine ⟨fun r => (memo.lookup r).getD r, [], rfl, by simp, by simp, ?_, ?_, by simp⟩
    · intro r r' h; simp [h]
    · intro r1 r2 h1 h2 h
      simp only [List.not_mem_nil, false_or] at h1 h2
      obtain ⟨x1, h1⟩ := Option.ne_none_iff_exists'.mp h1
      obtain ⟨x2, h2⟩ := Option.ne_none_iff_exists'.mp h2
      simp only [h1, h2, Option.getD_some] at h
      subst h
      exact hinj r1 r2 _ h1 h2
  | cons r rs ih =>
    unfold Entry.deepcopyWith
    have hrs' : ∀ x ∈ rs, x < w.entries.length := fun x hx => hrs x (by simp [hx])
    rcases hl : memo.lookup r with _ | r'
    · simp only
      have hr : r < w.entries.length := hrs r (by simp)
      refine Wp.getEntry_bind (List.getElem?_eq_getElem hr) ?_
      refine Wp.bind_ok (a := w.entries.length) (w' := { w with entries := w.entries ++ [w.entries[r]] }) rfl ?_
      refine Wp.bind ?_
      have hlook : ∀ x, ((r, w.entries.length) :: memo).lookup x =
          if x = r then some w.entries.length else memo.lookup x := by
        intro x
        rw [List.lookup_cons]
        by_cases hx : x = r
        · simp [hx]
        · have : (x == r) = false := by simpa using hx
          simp [this, hx]
      have := ih ((r, w.entries.length) :: memo) { w with entries := w.entries ++ [w.entries[r]] }
        (by intro x hx; have := hrs' x hx; simp; omega) (by simp; omega)
        (by
          intro x x' hx
          rw [hlook] at hx
          split at hx
          · rename_i hxr; subst hxr
            simp only [Option.some.injEq] at hx; subst hx
            refine ⟨hN, by simp, ?_⟩
            rw [List.getElem?_append_right (le_refl _), List.getElem?_append_left hr]; simp
          · obtain ⟨h1, h2, h3⟩ := hmemo x x' hx
            have hx0 : x < w.entries.length := by
              have := List.getElem?_eq_getElem h2
              rw [h3] at this
              exact (List.getElem?_eq_some_iff.mp this).1
            refine ⟨h1, by simp; omega, ?_⟩
            rw [List.getElem?_append_left h2, List.getElem?_append_left hx0, h3])
        (by
          intro r1 r2 x h1 h2
          rw [hlook] at h1 h2
          split at h1 <;> split at h2
          · simp_all
          · simp only [Option.some.injEq] at h1; subst h1
            have := (hmemo _ _ h2).2.1; omega
          · simp only [Option.some.injEq] at h2; subst h2
            have := (hmemo _ _ h1).2.1; omega
          · exact hinj r1 r2 x h1 h2)
      refine this.mono ?_
      rintro res w' ⟨f, l, rfl, rfl, h3, h4, h5, h6⟩
      have hfr : f r = w.entries.length := h4 r _ (by rw [hlook]; simp)
      refine ⟨f, w.entries[r] :: l, ?_, by simp, ?_, ?_, ?_, ?_⟩
      · simp [hfr]
      · intro o ho
        rcases List.mem_cons.mp ho with rfl | ho
        · exact List.getElem_mem hr
        · rcases List.mem_append.mp (h3 o ho) with h | h
          · exact h
          · rw [List.mem_singleton] at h; subst h; exact List.getElem_mem hr
      · intro x x' hx
        refine h4 x x' ?_
        rw [hlook, if_neg (fun h => by subst h; rw [hl] at hx; cases hx)]; exact hx
      · intro r1 r2 h1 h2
        have hconv : ∀ x, (x ∈ r :: rs ∨ memo.lookup x ≠ none) →
            (x ∈ rs ∨ ((r, w.entries.length) :: memo).lookup x ≠ none) := by
          intro x hx
          rw [hlook]
          by_cases hxr : x = r
          · right; simp [hxr]
          · simp only [if_neg hxr]
            rcases hx with hx | hx
            · left; simpa [hxr] using hx
            · right; exact hx
        exact h5 r1 r2 (hconv r1 h1) (hconv r2 h2)
      · intro x hx
        rcases List.mem_cons.mp hx with rfl | hx
        · rw [hfr]
          refine ⟨hN, ?_⟩
          rw [List.getElem?_append_right (le_refl _)]
          simp [List.getElem?_eq_getElem hr]
        · obtain ⟨h7, h8⟩ := h6 x hx
          refine ⟨h7, ?_⟩
          rw [← List.append_cons] at h8
          rw [h8, List.getElem?_append_left (hrs' x hx)]
    · simp only
      refine Wp.bind ?_
      refine (ih memo w hrs' hN hmemo hinj).mono ?_
      rintro res w' ⟨f, l, rfl, rfl, h3, h4, h5, h6⟩
      have hfr : f r = r' := h4 r r' hl
      refine ⟨f, l, by simp [hfr], rfl, h3, h4, ?_, ?_⟩
      · intro r1 r2 h1 h2
        have hconv : ∀ x, (x ∈ r :: rs ∨ memo.lookup x ≠ none) → (x ∈ rs ∨ memo.lookup x ≠ none) := by
          intro x hx
          rcases hx with hx | hx
          · rcases List.mem_cons.mp hx with rfl | hx
            · right; simp [hl]
            · left; exact hx
          · right; exact hx
        exact h5 r1 r2 (hconv r1 h1) (hconv r2 h2)
      · intro x hx
        rcases List.mem_cons.mp hx with rfl | hx
        · rw [hfr]
          obtain ⟨h7, h8, h9⟩ := hmemo _ _ hl
          refine ⟨h7, ?_⟩
          rw [List.getElem?_append_left h8, h9]
        · exact h6 x hx

theorem deepcopy_wp {w : World} {rs : List Ref} (hrs : ∀ r ∈ rs, r < w.entries.length) :
    Wp (Entry.deepcopy rs) (fun res w' => ∃ (f : Ref → Ref) (l : List EntryObj),
      res = .ok (rs.map f) ∧ w' = { w with entries := w.entries ++ l } ∧
      (∀ o ∈ l, o ∈ w.entries) ∧
      (∀ r1 ∈ rs, ∀ r2 ∈ rs, f r1 = f r2 → r1 = r2) ∧
      (∀ r ∈ rs, w.entries.length ≤ f r ∧ (w.entries ++ l)[f r]? = w.entries[r]?)) w := by
  refine (deepcopyWith_wp rs [] w.entries.length w hrs le_rfl (by simp) (by simp)).mono ?_
  rintro res w' ⟨f, l, h1, h2, h3, -, h5, h6⟩
  exact ⟨f, l, h1, h2, h3, fun r1 hr1 r2 hr2 => h5 r1 r2 (.inl hr1) (.inl hr2), h6⟩

end Stoq
