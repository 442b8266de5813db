import Verif.Proofs.ObjectsNames
import Verif.Proofs.ObjectsSaved

/-! Every client program refines the specification over gate objects. -/

namespace Stoq

open World Matrix

/-- The gates whose product `product()` returns after `undo()`. -/
def ObjSeq.undoWord (v : ObjSeq) : List EntryVal := (v.undo.map Prod.snd).getD []

/-- The sequence object represents the list of gate objects. -/
structure ObjRel (es : List EntryObj) (R : ℕ → ℕ → Prop) (o : SeqObj) (v : ObjSeq) : Prop where
  view : viewOf es o = v.view
  ids : List.Forall₂ R o.entries (v.entries.map Prod.fst)
  undo : ∀ ps, o.previousEntries = some ps → ∃ u, v.undo = some u ∧ List.Forall₂ R ps (u.1.map Prod.fst)
  val : ∃ n, ValOk n es o (circuit n v.word) (circuit n v.undoWord)

/-- The client's objects represent the numbered objects. -/
structure ORel (c : Client) (x : Objects) (R : ℕ → ℕ → Prop) : Prop where
  wf : c.world.WF 0
  exact : ExactEs c.world.entries
  names : Names R 0 c.world.entries.length 0 x.next
  ents : List.Forall₂ (fun r e => R r e.1 ∧ EntryIs c.world.entries r e.2) c.entries x.entries
  seqs : List.Forall₂ (fun r v => ∃ o, c.world.seqs[r]? = some o ∧ ObjRel c.world.entries R o v) c.seqs x.seqs
  nodup : c.seqs.Nodup

theorem ObjRel.grow {es es' : List EntryObj} {R R' : ℕ → ℕ → Prop} {o : SeqObj} {v : ObjSeq} (h : ObjRel es R o v)
    (hs : SeqOk es o) (hg : Grow es es') (hR : ∀ a b, R a b → R' a b) : ObjRel es' R' o v where
  view := (viewOf_grow hs hg).trans h.view
  ids := h.ids.imp hR
  undo ps hps := by
    obtain ⟨u, h1, h2⟩ := h.undo ps hps
    exact ⟨u, h1, h2.imp hR⟩
  val := by
    obtain ⟨n, h1⟩ := h.val
    exact ⟨n, h1.grow hs hg⟩

theorem ORel.seq_lt {c : Client} {x : Objects} {R : ℕ → ℕ → Prop} (h : ORel c x R) {t : ℕ} (ht : t ∈ c.seqs) :
    t < c.world.seqs.length := by
  obtain ⟨i, hi⟩ := List.mem_iff_getElem?.mp ht
  rcases forall₂_getElem? h.seqs i with ⟨h1, -⟩ | ⟨a, b, h1, -, o, ho, -⟩
  · rw [hi] at h1; cases h1
  · rw [hi] at h1; cases h1
    exact (List.getElem?_eq_some_iff.mp ho).1

/-- One sequence object was changed. -/
theorem ORel.step {c : Client} {x : Objects} {R R' : ℕ → ℕ → Prop} (h : ORel c x R) {s r m : ℕ} {w' : World}
    {o o' : SeqObj} (hs : c.seqs[s]? = some r) (ho : c.world.seqs[r]? = some o) (st : Step 0 c.world w' r o o')
    (hR : ∀ a b, R a b → R' a b) (hn : Names R' 0 w'.entries.length 0 m) {v' : ObjSeq}
    (hv : ObjRel w'.entries R' o' v') :
    ORel { c with world := w' } ⟨m, x.entries, x.seqs.set s v'⟩ R' where
  wf := st.wf h.wf
  exact := st.exact h.exact
  names := hn
  ents := h.ents.imp fun _ _ he => ⟨hR _ _ he.1, he.2.grow st.grow⟩
  seqs := by
    refine forall₂_set h.seqs hs h.nodup ⟨o', st.get ho, hv⟩ ?_
    rintro y z _ hy ⟨o1, h1, h2⟩
    exact ⟨o1, by rw [st.get_ne hy]; exact h1, h2.grow (h.wf.seq h1) st.grow hR⟩
  nodup := h.nodup

/-- Objects were added. -/
theorem ORel.ext {c : Client} {x : Objects} {R R' : ℕ → ℕ → Prop} (h : ORel c x R) {w' : World} {m : ℕ}
    (he : Ext 0 c.world w') (hex : ExactEs w'.entries) (hval : ValExt c.world w') (hR : ∀ a b, R a b → R' a b)
    (hn : Names R' 0 w'.entries.length 0 m) {ne ns : List ℕ} {nv : List Tagged} {nsv : List ObjSeq}
    (h1 : List.Forall₂ (fun r e => R' r e.1 ∧ EntryIs w'.entries r e.2) ne nv)
    (h2 : List.Forall₂ (fun r v => ∃ o, w'.seqs[r]? = some o ∧ ObjRel w'.entries R' o v) ns nsv)
    (h3 : (c.seqs ++ ns).Nodup) :
    ORel ⟨w', c.entries ++ ne, c.seqs ++ ns⟩ ⟨m, x.entries ++ nv, x.seqs ++ nsv⟩ R' where
  wf := he.wf
  exact := hex
  names := hn
  ents := forall₂_append' (h.ents.imp fun _ _ x => ⟨hR _ _ x.1, x.2.grow he.grow⟩) h1
  seqs := by
    refine forall₂_append' (h.seqs.imp ?_) h2
    rintro r v ⟨o, ho, hv⟩
    obtain ⟨o', ho', hs⟩ := he.seqs r o ho
    obtain ⟨n, hok⟩ := hv.val
    obtain ⟨o2, ho2, hok2⟩ := hval r o n _ _ ho hok
    rw [ho'] at ho2; cases ho2
    refine ⟨o', ho', ?_, ?_, ?_, n, hok2⟩
    · rw [← hv.view, ← viewOf_grow (h.wf.seq ho) he.grow]
      unfold viewOf
      rw [hs.dim, hs.arr, hs.entries, hs.prev]
    · rw [hs.entries]; exact hv.ids.imp hR
    · intro ps hps
      rw [hs.prev] at hps
      obtain ⟨u, h1, h2⟩ := hv.undo ps hps
      exact ⟨u, h1, h2.imp hR⟩
  nodup := h3

theorem len_mono {es es' : List EntryObj} (h : Grow es es') : es.length ≤ es'.length := by
  by_contra hlt
  push Not at hlt
  obtain ⟨x', hx', -⟩ := h es'.length _ (List.getElem?_eq_getElem hlt)
  simp at hx'

/-- Nothing but caches changed. -/
theorem ORel.quiet {c : Client} {x : Objects} {R : ℕ → ℕ → Prop} (h : ORel c x R) {w' : World}
    (he : Ext 0 c.world w') (hex : ExactEs w'.entries) (hval : ValExt c.world w') :
    ORel { c with world := w' } x R := by
  have := h.ext he hex hval (fun _ _ h => h) (h.names.mono le_rfl (len_mono he.grow) le_rfl le_rfl)
    (ne := []) (ns := []) (nv := []) (nsv := []) .nil .nil (by simpa using h.nodup)
  simpa using this

/-- Result and state of a call agree with the specification. -/
def StepO (x : Except PyErr Client.Obs × Client) (y : Except PyErr Plain.Obs × Objects) : Prop :=
  SameResult x.1 y.1 ∧ ∃ R, ORel x.2 y.2 R

theorem callO {α : Type} {c : Client} {m : PyM World α} {obs : α → World → Client.Obs}
    {newE newS : α → List ℕ} {Q : Except PyErr α → World → Prop} (h : Wp m Q c.world)
    {y : Except PyErr Plain.Obs × Objects}
    (hok : ∀ a w, Q (.ok a) w → StepO (.ok (obs a w), ⟨w, c.entries ++ newE a, c.seqs ++ newS a⟩) y)
    (herr : ∀ e w, Q (.error e) w → StepO (.error e, { c with world := w }) y) :
    StepO (c.call m obs newE newS) y := by
  unfold Wp at h
  unfold Client.call
  rcases hm : m c.world with ⟨e | a, w⟩ <;> rw [hm] at h
  · exact herr e w h
  · exact hok a w h

section

variable {c : Client} {x : Objects} {R : ℕ → ℕ → Prop}

theorem stepO_dangling (h : ORel c x R) : StepO (.error .dangling, c) (.error .dangling, x) := ⟨rfl, R, h⟩

theorem stepO_seq (h : ORel c x R) (s : ℕ) {f : ℕ → Except PyErr Client.Obs × Client}
    {g : ObjSeq → Except PyErr Plain.Obs × Objects}
    (hfg : ∀ r o n v, c.seqs[s]? = some r → c.world.seqs[r]? = some o → x.seqs[s]? = some v →
      ObjRel c.world.entries R o v → ValOk n c.world.entries o (circuit n v.word) (circuit n v.undoWord) →
      v.dimension = 2 ^ n → v.isArray = o.isArray → v.entries.map Prod.snd = valsOf c.world.entries o.entries →
      StepO (f r) (g v)) :
    StepO (Client.with_ (c.seqs[s]?) c f) (Objects.with_ (x.seqs[s]?) x g) := by
  rcases forall₂_getElem? h.seqs s with ⟨h1, h2⟩ | ⟨r, v, h1, h2, o, ho, hv⟩
  · rw [h1, h2]; exact stepO_dangling h
  · rw [h1, h2]
    obtain ⟨n, hn⟩ := hv.val
    have h3 := hv.view
    unfold viewOf ObjSeq.view at h3
    injection h3 with h3 h4 h5 h6
    exact hfg r o n v h1 ho h2 hv hn (h3.symm.trans hn.dim) h4.symm h5.symm

theorem stepO_entry (h : ORel c x R) (e : ℕ) {f : ℕ → Except PyErr Client.Obs × Client}
    {g : Tagged → Except PyErr Plain.Obs × Objects}
    (hfg : ∀ r i y, c.world.entries[r]? = some y → R r i → y.toVal.WF → y.toVal.Exact → StepO (f r) (g (i, y.toVal))) :
    StepO (Client.with_ (c.entries[e]?) c f) (Objects.with_ (x.entries[e]?) x g) := by
  rcases forall₂_getElem? h.ents e with ⟨h1, h2⟩ | ⟨r, ⟨i, v⟩, h1, h2, h3, y, h4, h5⟩
  · rw [h1, h2]; exact stepO_dangling h
  · rw [h1, h2]
    simp only at h5
    subst h5
    exact hfg r i y h4 h3 (h.wf.entries y (List.mem_of_getElem? h4)).wf (h.exact y (List.mem_of_getElem? h4))

/-- A change of the list of entries. -/
theorem stepO_change (h : ORel c x R) {s r n : ℕ} {o : SeqObj} {v : ObjSeq}
    (hs : c.seqs[s]? = some r) (ho : c.world.seqs[r]? = some o) (hv : ObjRel c.world.entries R o v)
    (hok : ValOk n c.world.entries o (circuit n v.word) (circuit n v.undoWord))
    {b : Bool} {upd : List ℕ} {m : PyM World Unit} {new : List Tagged} {word : List EntryVal}
    (hm : Wp m (fun res w' => ∃ o', ModPost 0 c.world r o b upd res w' o') c.world)
    (hval : Wp m (ValRes r o b (fun p => p.Exact (2 ^ n) ∧ p.matrix.toMatrix (2 ^ n) = circuit n word)
      (fun p => p.Exact (2 ^ n) ∧ p.matrix.toMatrix (2 ^ n) = circuit n v.word)) c.world)
    (hsv : Wp m (fun _ w' => SavedRefs c.world r o b w') c.world)
    (hids : List.Forall₂ R upd (new.map Prod.fst)) (hupd : valsOf c.world.entries upd = new.map Prod.snd)
    (hfresh : circuit n v.word = circuit n (valsOf c.world.entries o.entries) →
      circuit n word = circuit n (valsOf c.world.entries upd)) :
    StepO (c.call m (fun _ _ => .unit) (fun _ => []) (fun _ => [])) (x.change s v b new word) := by
  have hview := hv.view
  unfold viewOf ObjSeq.view at hview
  injection hview with hd ha hes hun
  have hlt : ∀ y ∈ upd, y < c.world.entries.length := by
    intro y hy
    obtain ⟨i, hi⟩ := List.mem_iff_getElem?.mp hy
    rcases forall₂_getElem? hids i with ⟨h1, -⟩ | ⟨a, b', h1, -, h2⟩
    · rw [hi] at h1; cases h1
    · rw [hi] at h1; cases h1
      exact (h.names.range _ _ h2).2.1
  -- the new correspondence and the undo state
  have prev : ∀ w' o', Step 0 c.world w' r o o' → SavedRefs c.world r o b w' →
      (o'.previousEntries.map (valsOf w'.entries) = if b then some (valsOf c.world.entries o.entries)
        else o.previousEntries.map (valsOf c.world.entries)) →
      ∃ R' : ℕ → ℕ → Prop, (∀ a b, R a b → R' a b) ∧
        Names R' 0 w'.entries.length 0 (if b then x.next + x.next else x.next) ∧
        (∀ ps, o'.previousEntries = some ps → ∃ u, (if b then some (copies x.next v.entries, v.word) else v.undo) =
          some u ∧ List.Forall₂ R' ps (u.1.map Prod.fst)) := by
    rintro w' o' st ⟨o1, ho1, h1, -, h2⟩ -
    rw [st.get ho] at ho1; cases ho1
    cases b with
    | false =>
      refine ⟨R, fun _ _ h => h, h.names.mono le_rfl (len_mono st.grow) le_rfl le_rfl, fun ps hps => ?_⟩
      rw [h2 rfl] at hps
      exact hv.undo ps hps
    | true =>
      obtain ⟨f, h3, h4, h5⟩ := h1 rfl
      have hfr : ∀ y ∈ o.entries, c.world.entries.length ≤ f y ∧ f y < w'.entries.length := fun y hy =>
        ⟨h5 y hy, (st.seqok.prev _ h3).lt _ (List.mem_map.mpr ⟨y, hy, rfl⟩)⟩
      have hcn := h.names.copy h4 hfr x.next
      rw [Nat.zero_add] at hcn
      refine ⟨fun a b => R a b ∨ CopyNames R o.entries f x.next a b, fun _ _ h => .inl h,
        h.names.union hcn (Nat.zero_le _) (len_mono st.grow) (Nat.zero_le _) (by simp), fun ps hps => ?_⟩
      rw [h3] at hps; cases hps
      refine ⟨_, rfl, ?_⟩
      rw [copies_fst]
      exact (forall₂_copy hv.ids f x.next).imp fun _ _ h => .inr h
  have undoView : (if b then some (valsOf c.world.entries o.entries)
        else o.previousEntries.map (valsOf c.world.entries)) =
      (if b then some (copies x.next v.entries, v.word) else v.undo).map fun u => u.1.map Prod.snd := by
    cases b with
    | false => exact hun
    | true => simp [copies_snd, hes]
  -- the stored products
  have vals : ∀ w' o' (P : Unitary → Prop) (gs : List EntryVal), Step 0 c.world w' r o o' →
      SavedRefs c.world r o b w' →
      (o'.previousEntries.map (valsOf w'.entries) = if b then some (valsOf c.world.entries o.entries)
        else o.previousEntries.map (valsOf c.world.entries)) →
      ValPost o b P (fun p => p.Exact (2 ^ n) ∧ p.matrix.toMatrix (2 ^ n) = circuit n v.word) o' →
      (∀ p, P p → p.Exact (2 ^ n) ∧ p.matrix.toMatrix (2 ^ n) = circuit n gs) →
      (o.product = none → circuit n gs = circuit n (valsOf w'.entries o'.entries)) →
      ValOk n w'.entries o' (circuit n gs)
        (circuit n (((if b then some (copies x.next v.entries, v.word) else v.undo).map Prod.snd).getD [])) := by
    rintro w' o' P gs st ⟨o1, ho1, h1, h1', h2⟩ hpv vp hP hg
    rw [st.get ho] at ho1; cases ho1
    refine ⟨st.dim.trans hok.dim, fun p hp => hP p (vp.prod p hp), fun hn => hg (vp.noprod.mp hn), ?_,
      fun hn => ?_⟩
    · intro ps hps
      cases b with
      | false =>
        rw [h2 rfl] at hps
        rw [vp.keep (.inl rfl), ((h.wf.seq ho).prev ps hps).vals_grow st.grow]
        exact hok.prev ps hps
      | true =>
        rw [hps] at hpv
        simp only [Option.map_some, if_true, Option.some.injEq] at hpv
        simp only [if_true, Option.map_some, Option.getD_some]
        by_cases hop : o.product = none
        · rw [vp.keep (.inr hop), hok.none hop]
          refine ⟨fun p hp => (by cases hp), fun _ => ?_⟩
          rw [hok.fresh hop, hpv]
        · exact ⟨fun p hp => vp.prev rfl hop p hp, fun hn => absurd hn (h1' rfl hop)⟩
    · have hop := vp.noprod.mp hn
      rw [vp.keep (.inr hop), hok.none hop]
  unfold Objects.change
  refine callO ((hm.and hval).and hsv) ?_ ?_
  · rintro a w' ⟨⟨⟨o', h1, h2⟩, h3, h4⟩, h5⟩
    cases harr : o.isArray with
    | true => exact absurd rfl ((h2 harr).fail)
    | false =>
      have hmp := h1 harr
      obtain ⟨-, o1, ho1, vp⟩ := h3 harr
      rw [hmp.step.get ho] at ho1; cases ho1
      rw [← ha, harr]
      simp only [Bool.false_eq_true, if_false]
      obtain ⟨R', hR, hn, hpr⟩ := prev w' o' hmp.step h5 hmp.undo
      have hent := hmp.ok rfl
      have hvu : valsOf w'.entries o'.entries = valsOf c.world.entries upd := by
        rw [hent, valsOf_grow hlt hmp.step.grow]
      refine ⟨trivial, R', ?_⟩
      have := h.step (R' := R') hs ho hmp.step hR hn
        (v' := ⟨v.dimension, v.isArray, new, word, if b then some (copies x.next v.entries, v.word) else v.undo⟩)
        ⟨by
          unfold viewOf ObjSeq.view
          rw [hmp.undo, undoView, hmp.step.dim, hmp.step.arr, hd, ha, hvu, hupd], by
          rw [hent]; exact hids.imp hR, hpr, n,
          vals w' o' _ word hmp.step h5 hmp.undo vp (fun p hp => hp) fun hop => by
            rw [hvu]; exact hfresh (hok.fresh hop)⟩
      simpa [← ha, harr] using this
  · rintro e w' ⟨⟨⟨o', h1, h2⟩, h3, h4⟩, h5⟩
    cases harr : o.isArray with
    | false => exact absurd (h3 harr).1 (by simp)
    | true =>
      have hmp := h2 harr
      obtain ⟨herr, o1, ho1, vp⟩ := h4 harr
      rw [hmp.step.get ho] at ho1; cases ho1
      simp only [Except.error.injEq] at herr
      rw [← ha, harr]
      simp only [if_true]
      obtain ⟨R', hR, hn, hpr⟩ := prev w' o' hmp.step h5 hmp.undo
      have hvu : valsOf w'.entries o'.entries = valsOf c.world.entries o.entries := by
        rw [hmp.entries, (h.wf.seq ho).entries.vals_grow hmp.step.grow]
      refine ⟨herr, R', ?_⟩
      have := h.step (R' := R') hs ho hmp.step hR hn
        (v' := ⟨v.dimension, v.isArray, v.entries, v.word,
          if b then some (copies x.next v.entries, v.word) else v.undo⟩)
        ⟨by
          unfold viewOf ObjSeq.view
          rw [hmp.undo, undoView, hmp.step.dim, hmp.step.arr, hd, ha, hvu, hes], by
          rw [hmp.entries]; exact hv.ids.imp hR, hpr, n,
          vals w' o' _ v.word hmp.step h5 hmp.undo vp (fun p hp => hok.prod p hp) fun hop => by
            rw [hvu]; exact hok.fresh hop⟩
      simpa [← ha, harr] using this

end

end Stoq
