import Verif.Proofs.Objects

/-! Every call refines the specification over gate objects. -/

namespace Stoq

open World Matrix

section Values

variable {n : ℕ} {es : List EntryObj} {o : SeqObj} {A B : Matrix (Fin (2 ^ n)) (Fin (2 ^ n)) ℂ} {g : EntryVal}

theorem ValOk.saves (h : ValOk n es o A B) (b : Bool) :
    Saves 0 o b (fun p => p.Exact (2 ^ n) ∧ p.matrix.toMatrix (2 ^ n) = A) := by
  intro _ p hp
  obtain ⟨h1, h2⟩ := h.prod p hp
  exact ⟨_, rewrap_exact h1, plain_exact h1.pos h1.rows h1.cols h1.2.2.2, h2⟩

theorem ValOk.updates (h : ValOk n es o A B) (hw : g.WF) (hf : g.Fits n) (he : g.Exact)
    {mul : Unitary → Unitary → Except PyErr Unitary} {C : Matrix (Fin (2 ^ n)) (Fin (2 ^ n)) ℂ}
    (hmul : ∀ p f : Unitary, p.Exact (2 ^ n) → f.Exact (2 ^ n) → p.matrix.toMatrix (2 ^ n) = A →
      f.matrix.toMatrix (2 ^ n) = g.op n → ∃ r, mul p f = .ok r ∧ r.Exact (2 ^ n) ∧ r.matrix.toMatrix (2 ^ n) = C) :
    Updates 0 o g mul (fun p => p.Exact (2 ^ n) ∧ p.matrix.toMatrix (2 ^ n) = C) := by
  intro p hp
  obtain ⟨h1, h2⟩ := h.prod p hp
  obtain ⟨f, h3, h4, h5⟩ := fullUnitary_op hw hf he
  rw [h.dim]
  exact ⟨f, h3, hmul p f h1 h4 h2 h5⟩

end Values

section

variable {c : Client} {x : Objects} {R : ℕ → ℕ → Prop}

theorem fits_dim {o : SeqObj} {v : ObjSeq} {n : ℕ} (hd : v.dimension = 2 ^ n) (hod : o.dimension = 2 ^ n)
    {g : EntryVal} (hw : g.WF) : Plain.fits v.dimension g ↔ FitsDim g o.dimension := by
  rw [hd, hod]; exact fits_iff' hw

theorem stepO_appendFirst (h : ORel c x R) (s e : ℕ) (b : Bool) :
    StepO (c.step 0 (.appendFirst s e b)) (x.step (.appendFirst s e b)) := by
  simp only [Client.step, Objects.step]
  refine stepO_seq h s fun r o n v hs ho hv0 hv hok hdim ha hvals => stepO_entry h e fun r' i y hy hR hwf hex => ?_
  have hiff := fits_dim hdim hok.dim hwf
  by_cases hf : FitsDim y.toVal o.dimension
  · rw [if_pos (hiff.mpr hf)]
    have hfit : y.toVal.Fits n := (hok.dim ▸ hf).fits
    refine stepO_change h hs ho hv hok (upd := r' :: o.entries) ((appendFirst_wp h.wf ho hy b).mono fun _ _ ⟨o', h'⟩ => ⟨o', h'.accept hf⟩)
      (appendFirst_val h.wf ho hy hf b (hok.saves b) (hok.updates hwf hfit hex fun p f h1 h2 h3 h4 => ?_))
      (appendFirst_saved h.wf ho hy hf b (hok.saves b)) (.cons hR hv.ids) ?_ fun h1 => ?_
    · obtain ⟨q, h5, h6, h7⟩ := rightMultiply_exact h1 h2
      exact ⟨q, h5, h6, by rw [h7, h3, h4]; rfl⟩
    · rw [valsOf_cons hy, ← hvals]; rfl
    · rw [valsOf_cons hy, circuit, circuit, h1]
  · rw [if_neg fun h' => hf (hiff.mp h')]
    refine callO (appendFirst_wp h.wf ho hy b) ?_ ?_
    · rintro a w' ⟨o', h'⟩
      exact absurd (h'.reject hf).1 (by simp)
    · rintro e w' ⟨o', h'⟩
      obtain ⟨h1, h2, -⟩ := h'.reject hf
      cases h1
      exact ⟨rfl, R, by rw [h2]; exact h⟩

theorem stepO_appendLast (h : ORel c x R) (s e : ℕ) (b : Bool) :
    StepO (c.step 0 (.appendLast s e b)) (x.step (.appendLast s e b)) := by
  simp only [Client.step, Objects.step]
  refine stepO_seq h s fun r o n v hs ho hv0 hv hok hdim ha hvals => stepO_entry h e fun r' i y hy hR hwf hex => ?_
  have hiff := fits_dim hdim hok.dim hwf
  by_cases hf : FitsDim y.toVal o.dimension
  · rw [if_pos (hiff.mpr hf)]
    have hfit : y.toVal.Fits n := (hok.dim ▸ hf).fits
    refine stepO_change h hs ho hv hok (upd := o.entries ++ [r']) ((appendLast_wp h.wf ho hy b).mono fun _ _ ⟨o', h'⟩ => ⟨o', h'.accept hf⟩)
      (appendLast_val h.wf ho hy hf b (hok.saves b) (hok.updates hwf hfit hex fun p f h1 h2 h3 h4 => ?_))
      (appendLast_saved h.wf ho hy hf b (hok.saves b)) ?_ ?_ fun h1 => ?_
    · obtain ⟨q, h5, h6, h7⟩ := leftMultiply_exact h1 h2
      exact ⟨q, h5, h6, by rw [h7, h3, h4, circuit_append, circuit_singleton]⟩
    · rw [List.map_append]
      exact forall₂_append' hv.ids (.cons hR .nil)
    · rw [valsOf_append, valsOf_cons hy, valsOf_nil, ← hvals]; simp
    · rw [valsOf_append, valsOf_cons hy, valsOf_nil, circuit_append, circuit_append, h1]
  · rw [if_neg fun h' => hf (hiff.mp h')]
    refine callO (appendLast_wp h.wf ho hy b) ?_ ?_
    · rintro a w' ⟨o', h'⟩
      exact absurd (h'.reject hf).1 (by simp)
    · rintro e w' ⟨o', h'⟩
      obtain ⟨h1, h2, -⟩ := h'.reject hf
      cases h1
      exact ⟨rfl, R, by rw [h2]; exact h⟩

theorem entry_at (h : ORel c x R) {o : SeqObj} {t r n : ℕ} (ho : c.world.seqs[t]? = some o) (hd : o.dimension = 2 ^ n)
    (hr : r ∈ o.entries) : ∃ y, c.world.entries[r]? = some y ∧ y.toVal.WF ∧ y.toVal.Fits n ∧ y.toVal.Exact := by
  obtain ⟨y, hy, hf⟩ := (h.wf.seq ho).entries r hr
  exact ⟨y, hy, (h.wf.entries y (List.mem_of_getElem? hy)).wf, (hd ▸ hf).fits, h.exact y (List.mem_of_getElem? hy)⟩

theorem stepO_removeFirst (h : ORel c x R) (s : ℕ) (b : Bool) :
    StepO (c.step 0 (.removeFirst s b)) (x.step (.removeFirst s b)) := by
  simp only [Client.step, Objects.step]
  refine stepO_seq h s fun r o n v hs ho hv0 hv hok hdim ha hvals => ?_
  rcases hl : o.entries with _ | ⟨r', rest⟩
  · have hve : v.entries = [] := by
      have := hv.ids
      rw [hl] at this
      have := this.length_eq
      simpa using this.symm
    rw [hve]
    simp only [List.head?_nil]
    refine callO (removeFirst_wp h.wf ho b) ?_ ?_
    · rintro a w' ⟨o', h'⟩
      obtain ⟨-, h2, -⟩ := h'.empty hl
      refine ⟨trivial, R, ?_⟩
      rw [h2]; simpa using h
    · rintro e w' ⟨o', h'⟩
      exact absurd (h'.empty hl).1 (by simp)
  · obtain ⟨y, hy, hwf, hfit, hex⟩ := entry_at h ho hok.dim (show r' ∈ o.entries by rw [hl]; simp)
    have hids := hv.ids
    rw [hl, valsOf_cons hy] at hvals
    rw [hl] at hids
    rcases hve : v.entries with _ | ⟨⟨i, g⟩, vrest⟩
    · rw [hve] at hids; cases hids
    rw [hve] at hids hvals
    simp only [List.map_cons, List.cons.injEq] at hvals
    obtain ⟨rfl, hvals⟩ := hvals
    simp only [List.map_cons] at hids
    obtain ⟨hR, hids⟩ := List.forall₂_cons.mp hids
    simp only [List.head?_cons, List.tail_cons]
    refine stepO_change h hs ho hv hok (upd := o.entries.tail) ((removeFirst_wp h.wf ho b).mono fun _ _ ⟨o', h'⟩ => ⟨o', h'.some (by rw [hl]; simp)⟩)
      (removeFirst_val h.wf ho hl hy b (hok.saves b) (hok.updates hwf hfit hex fun p f h1 h2 h3 h4 => ?_))
      (removeFirst_saved h.wf ho hl hy b (hok.saves b)) (by rw [hl]; exact hids) (by rw [hl, hvals]; rfl) fun h1 => ?_
    · obtain ⟨f', h5, h6, h7⟩ := inverse_exact h2
      obtain ⟨q, h8, h9, h10⟩ := rightMultiply_exact h1 h6
      refine ⟨q, by rw [h5]; exact h8, h9, ?_⟩
      rw [h10, h7, h3, h4, circuit, op_dagger]
    · rw [hl] at h1 ⊢
      rw [valsOf_cons hy] at h1
      rw [circuit, h1, circuit, op_dagger, Matrix.mul_assoc, op_mul_ct hwf hfit hex, Matrix.mul_one]
      rfl

theorem stepO_removeLast (h : ORel c x R) (s : ℕ) (b : Bool) :
    StepO (c.step 0 (.removeLast s b)) (x.step (.removeLast s b)) := by
  simp only [Client.step, Objects.step]
  refine stepO_seq h s fun r o n v hs ho hv0 hv hok hdim ha hvals => ?_
  rcases List.eq_nil_or_concat o.entries with hl | ⟨rest, r', hl⟩
  · have hve : v.entries = [] := by
      have := hv.ids
      rw [hl] at this
      have := this.length_eq
      simpa using this.symm
    rw [hve]
    simp only [List.getLast?_nil]
    refine callO (removeLast_wp h.wf ho b) ?_ ?_
    · rintro a w' ⟨o', h'⟩
      obtain ⟨-, h2, -⟩ := h'.empty hl
      refine ⟨trivial, R, ?_⟩
      rw [h2]; simpa using h
    · rintro e w' ⟨o', h'⟩
      exact absurd (h'.empty hl).1 (by simp)
  · rw [List.concat_eq_append] at hl
    obtain ⟨y, hy, hwf, hfit, hex⟩ := entry_at h ho hok.dim (show r' ∈ o.entries by rw [hl]; simp)
    have hids := hv.ids
    rw [hl, valsOf_append, valsOf_cons hy, valsOf_nil] at hvals
    rw [hl] at hids
    rcases List.eq_nil_or_concat v.entries with hve | ⟨vrest, ⟨i, g⟩, hve⟩
    · rw [hve] at hids
      have := hids.length_eq
      simp at this
    rw [List.concat_eq_append] at hve
    rw [hve] at hids hvals
    rw [List.map_append, List.map_cons, List.map_nil] at hvals hids
    obtain ⟨hv1, hg⟩ := List.append_inj' hvals rfl
    simp only [List.cons.injEq, and_true] at hg
    subst hg
    have hlen : rest.length = (vrest.map Prod.fst).length := by
      have := hids.length_eq
      simpa using this
    have hids' : List.Forall₂ R rest (vrest.map Prod.fst) := by
      have := List.forall₂_take rest.length hids
      rwa [List.take_left, hlen, List.take_left] at this
    rw [hve, List.getLast?_append_of_ne_nil _ (by simp)]
    simp only [List.getLast?_singleton, List.dropLast_concat]
    refine stepO_change h hs ho hv hok (upd := o.entries.dropLast) ((removeLast_wp h.wf ho b).mono fun _ _ ⟨o', h'⟩ => ⟨o', h'.some (by rw [hl]; simp)⟩)
      (removeLast_val h.wf ho hl hy b (hok.saves b) (hok.updates hwf hfit hex fun p f h1 h2 h3 h4 => ?_))
      (removeLast_saved h.wf ho hl hy b (hok.saves b)) (by rw [hl, List.dropLast_concat]; exact hids')
      (by rw [hl, List.dropLast_concat, hv1]) fun h1 => ?_
    · obtain ⟨f', h5, h6, h7⟩ := inverse_exact h2
      obtain ⟨q, h8, h9, h10⟩ := leftMultiply_exact h1 h6
      refine ⟨q, by rw [h5]; exact h8, h9, ?_⟩
      rw [h10, h7, h3, h4, circuit_append, circuit_singleton, op_dagger]
    · rw [hl] at h1 ⊢
      rw [valsOf_append, valsOf_cons hy, valsOf_nil] at h1
      rw [List.dropLast_concat, circuit_append, h1, circuit_append, circuit_singleton, circuit_singleton, op_dagger,
        ← Matrix.mul_assoc, op_ct_mul hwf hfit hex, Matrix.one_mul]

theorem stepO_undo (h : ORel c x R) (s : ℕ) : StepO (c.step 0 (.undo s)) (x.step (.undo s)) := by
  simp only [Client.step, Objects.step]
  refine stepO_seq h s fun r o n v hs ho hv0 hv hok hdim ha hvals => ?_
  have hview := hv.view
  unfold viewOf ObjSeq.view at hview
  injection hview with hd ha' hes hun
  rcases hprev : o.previousEntries with _ | ps
  · rw [hprev] at hun
    have hvu : v.undo = none := by simpa using hun.symm
    simp only [hvu]
    refine callO (undo_wp h.wf ho) ?_ ?_
    · rintro a w' ⟨o', -, h1, -, -⟩
      exact absurd (h1 hprev).1 (by simp)
    · rintro e w' ⟨o', -, h1, -, -⟩
      obtain ⟨h2, h3, -⟩ := h1 hprev
      cases h2
      exact ⟨rfl, R, by rw [h3]; exact h⟩
  · obtain ⟨u, hvu, hids⟩ := hv.undo ps hprev
    rw [hprev, hvu] at hun
    simp only [Option.map_some, Option.some.injEq] at hun
    simp only [hvu]
    refine callO (undo_wp h.wf ho) ?_ ?_
    · rintro a w' ⟨o', st, -, h2, h3⟩
      obtain ⟨-, h4, rfl⟩ := h2 ps hprev
      refine ⟨trivial, R, ?_⟩
      obtain ⟨h5, h6⟩ := hok.prev ps hprev
      have hb : v.undoWord = u.2 := by simp [ObjSeq.undoWord, hvu]
      rw [hb] at h5 h6
      have := h.step (R' := R) (m := x.next) hs ho st (fun _ _ h => h) (by rw [h4]; exact h.names)
        (v' := { v with entries := u.1, word := u.2, undo := none })
        ⟨by simp [viewOf, ObjSeq.view, h4, hd, ha', hun], hids, fun _ h => (by cases h), n,
          hok.dim, h5, fun hn => by rw [h4]; exact h6 hn, fun _ h => (by cases h), fun _ => rfl⟩
      simpa using this
    · rintro e w' ⟨o', -, -, h2, -⟩
      exact absurd (h2 ps hprev).1 (by simp)

theorem stepO_product (h : ORel c x R) (s : ℕ) : StepO (c.step 0 (.product s)) (x.step (.product s)) := by
  simp only [Client.step, Objects.step]
  refine stepO_seq h s fun r o n v hs ho hv0 hv hok hdim ha hvals => ?_
  refine callO ((product_val hok h.exact h.wf ho).and (product_valExt h.exact h.wf ho)) ?_ ?_
  · rintro u w' ⟨⟨o', p, hpp, h1, h2, h3, -⟩, hext⟩
    cases h1
    refine ⟨?_, R, ?_⟩
    · rw [hdim, log2_pow]
      exact ⟨h2.rows, h2.cols, h3⟩
    · simpa using h.quiet (hpp.step.ext h.wf ho hpp.same) (hpp.step.exact h.exact) hext
  · rintro e w' ⟨⟨o', p, hpp, h1, -⟩, -⟩
    cases h1

/-! ## Pairs of a number and a content -/

theorem pairs_of {es : List EntryObj} {rs : List ℕ} {l : List Tagged} (h1 : List.Forall₂ R rs (l.map Prod.fst))
    (h2 : valsOf es rs = l.map Prod.snd) (h3 : ∀ r ∈ rs, r < es.length) :
    List.Forall₂ (fun r e => R r e.1 ∧ EntryIs es r e.2) rs l := by
  induction rs generalizing l with
  | nil =>
    cases l with
    | nil => exact .nil
    | cons _ _ => cases h1
  | cons r rs ih =>
    cases l with
    | nil => cases h1
    | cons e l =>
      have hr := List.getElem?_eq_getElem (h3 r (by simp))
      rw [valsOf_cons hr, List.map_cons, List.cons.injEq] at h2
      obtain ⟨h4, h5⟩ := List.forall₂_cons.mp h1
      exact .cons ⟨h4, _, hr, h2.1⟩ (ih h5 h2.2 fun y hy => h3 y (by simp [hy]))

theorem pairs_fst {es : List EntryObj} {rs : List ℕ} {l : List Tagged}
    (h : List.Forall₂ (fun r (e : Tagged) => R r e.1 ∧ EntryIs es r e.2) rs l) :
    List.Forall₂ R rs (l.map Prod.fst) := by
  induction h with
  | nil => exact .nil
  | cons h _ ih => exact .cons h.1 ih

theorem pairs_snd {es : List EntryObj} {rs : List ℕ} {l : List Tagged}
    (h : List.Forall₂ (fun r (e : Tagged) => R r e.1 ∧ EntryIs es r e.2) rs l) :
    List.Forall₂ (EntryIs es) rs (l.map Prod.snd) := by
  induction h with
  | nil => exact .nil
  | cons h _ ih => exact .cons h.2 ih

theorem count_names {a0 a1 b0 b1 : ℕ} (hn : Names R a0 a1 b0 b1) {rs ids : List ℕ} (h : List.Forall₂ R rs ids) {r i : ℕ}
    (hri : R r i) : ids.count i = rs.count r := by
  induction h with
  | nil => rfl
  | @cons r' i' rs ids h' _ ih =>
    rw [List.count_cons, List.count_cons, ih]
    congr 1
    by_cases hr : r' = r
    · subst hr
      rw [hn.fn _ _ _ h' hri]; simp
    · have : i' ≠ i := fun h => hr (hn.inj _ _ _ h' (h ▸ hri))
      simp [hr, this]

theorem valsOf_pairs {P : ℕ → Tagged → Prop} {es : List EntryObj} {rs : List ℕ} {l : List Tagged} {f : ℕ → ℕ}
    {g : Tagged → EntryVal} (h : List.Forall₂ P rs l) (hg : ∀ r ∈ rs, ∀ e, P r e → EntryIs es (f r) (g e)) :
    valsOf es (rs.map f) = l.map g := by
  induction h with
  | nil => rfl
  | @cons r e rs l h1 _ ih =>
    obtain ⟨y, hy, hv⟩ := hg r (by simp) e h1
    rw [List.map_cons, List.map_cons, valsOf_cons hy, hv, ih fun r hr => hg r (by simp [hr])]

theorem invertEach_fst (l : List Tagged) : (invertEach l).map Prod.fst = l.map Prod.fst := by
  simp [invertEach, Function.comp_def]

theorem nodup_new (h : ORel c x R) : (c.seqs ++ [c.world.seqs.length]).Nodup := by
  rw [List.nodup_append]
  refine ⟨h.nodup, by simp, ?_⟩
  intro a ha b hb hab
  rw [List.mem_singleton] at hb
  have := h.seq_lt ha
  omega

theorem stepO_inverse (h : ORel c x R) (s : ℕ) : StepO (c.step 0 (.inverse s)) (x.step (.inverse s)) := by
  simp only [Client.step, Objects.step]
  refine stepO_seq h s fun r o n v hs ho hv0 hv hok hdim ha hvals => ?_
  refine callO (inverse_val hok h.exact h.wf ho) ?_ ?_
  · rintro t w' ⟨hext, hvx, hxx, hA, hB⟩
    cases harr : o.isArray with
    | true => exact absurd (hA harr) (by simp)
    | false =>
      rw [ha, harr]
      simp only [Bool.false_eq_true, if_false]
      obtain ⟨ht, f, p', hobj, hp1, hp2, hinj, hfr, hcont⟩ := hB harr
      cases ht
      have hwf' := (hext.wf.seq hobj).entries.lt
      have hrange : ∀ y ∈ o.entries, c.world.entries.length ≤ f y ∧ f y < w'.entries.length := fun y hy =>
        ⟨hfr y hy, hwf' _ (List.mem_reverse.mpr (List.mem_map.mpr ⟨y, hy, rfl⟩))⟩
      have hcn := h.names.copy hinj hrange x.next
      rw [Nat.zero_add] at hcn
      have hpairs := pairs_of hv.ids hvals.symm (h.wf.seq ho).entries.lt
      have hvals' : valsOf w'.entries (o.entries.map f) = (invertEach v.entries).map Prod.snd := by
        rw [valsOf_pairs hpairs (g := fun e => if occurrences v.entries e.1 % 2 = 1 then e.2.dagger else e.2)
          (fun r hr e he => ?_)]
        · simp [invertEach, Function.comp_def]
        · obtain ⟨hRe, y, hy, hye⟩ := he
          obtain ⟨x', h1, h2⟩ := hcont r hr y hy
          refine ⟨x', h1, ?_⟩
          rw [h2, hye, occurrences, count_names h.names hv.ids hRe]
      refine ⟨trivial, fun a b => R a b ∨ CopyNames R o.entries f x.next a b, ?_⟩
      have := h.ext (m := x.next + x.next) (ne := []) (nv := []) (ns := [c.world.seqs.length])
        (nsv := [⟨v.dimension, false, (copies x.next (invertEach v.entries)).reverse,
                   (v.word.map EntryVal.dagger).reverse, none⟩]) hext hxx hvx
        (R' := fun a b => R a b ∨ CopyNames R o.entries f x.next a b) (fun _ _ h => .inl h)
        (h.names.union hcn (Nat.zero_le _) (len_mono hext.grow) (Nat.zero_le _) (by omega)) .nil
        (.cons ⟨_, hobj, by
          simp [viewOf, ObjSeq.view, valsOf_reverse, hvals', copies_snd, hdim, hok.dim], by
          rw [List.map_reverse, copies_fst, invertEach_fst]
          exact List.rel_reverse ((forall₂_copy hv.ids f x.next).imp fun _ _ h => .inr h),
          fun _ h => (by cases h), n, hok.dim, fun p hp => by
            cases hp
            exact ⟨hp1, by rw [hp2, circuit_inverse]⟩, fun h => (by cases h), fun _ h => (by cases h),
            fun _ => rfl⟩ .nil) (nodup_new h)
      simpa using this
  · rintro e w' ⟨hext, hvx, hxx, hA, hB⟩
    cases harr : o.isArray with
    | true =>
      have := hA harr
      cases this
      rw [ha, harr]
      exact ⟨rfl, R, h.quiet hext hxx hvx⟩
    | false => exact absurd (hB harr).1 (by simp)

theorem stepO_newEntry (h : ORel c x R) (u : Unitary) (qs : List ℤ) (hq : ∃ d, u.Exact d) :
    StepO (c.step 0 (.newEntry u qs)) (x.step (.newEntry u qs)) := by
  obtain ⟨d, hu⟩ := hq
  simp only [Client.step, Objects.step]
  unfold Entry.new
  rcases hv : EntryVal.new u qs with err | v
  · rw [(Client.call_eq (m := _)).2 err c.world
      (show (PyM.lift (Except.error err) >>= fun v => allocEntry ⟨v, []⟩) c.world = _ from rfl)]
    exact ⟨rfl, R, h⟩
  · rw [(Client.call_eq).1 c.world.entries.length
      { c.world with entries := c.world.entries ++ [⟨v, []⟩] }
      (show (PyM.lift (Except.ok v) >>= fun v => allocEntry ⟨v, []⟩) c.world = _ from rfl)]
    have hok : EntriesOk 0 [(⟨v, []⟩ : EntryObj)] := by
      intro x hx
      rw [List.mem_singleton] at hx; subst hx
      exact ⟨(entryNew_ok hv).1, by simp⟩
    have hext := Ext.appendEntries h.wf hok
    set w' : World := { c.world with entries := c.world.entries ++ [⟨v, []⟩] } with hw'
    have hnew : Names (fun a b => a = c.world.entries.length ∧ b = x.next) c.world.entries.length w'.entries.length
        x.next (x.next + 1) := by
      refine ⟨by omega, by omega, ?_⟩
      rintro a b ⟨rfl, rfl⟩
      simp [hw']
    refine ⟨trivial, fun a b => R a b ∨ (a = c.world.entries.length ∧ b = x.next), ?_⟩
    have := h.ext (m := x.next + 1) (ne := [c.world.entries.length]) (nv := [(x.next, v)]) (ns := []) (nsv := [])
      hext (h.exact.append (entryNew_exact hv hu)) (.of_prefix h.wf hext.grow fun _ _ => rfl)
      (R' := fun a b => R a b ∨ (a = c.world.entries.length ∧ b = x.next)) (fun _ _ h => .inl h)
      (h.names.union hnew (Nat.zero_le _) (len_mono hext.grow) (Nat.zero_le _) (by omega))
      (.cons ⟨.inr ⟨rfl, rfl⟩, ⟨v, []⟩, by simp [hw'], rfl⟩ .nil) .nil (by simpa using h.nodup)
    simpa using this

theorem stepO_newSeq (h : ORel c x R) (D : ℕ) (arr : Bool) (es : List ℕ) (hq : ∃ n, D = 2 ^ n) :
    StepO (c.step 0 (.newSeq D arr es)) (x.step (.newSeq D arr es)) := by
  obtain ⟨n, rfl⟩ := hq
  simp only [Client.step, Objects.step]
  rcases forall₂_getAll h.ents es with ⟨h1, h2⟩ | ⟨rs, vs, h1, h2, h3⟩
  · rw [h1, h2]; exact stepO_dangling h
  rw [h1, h2]
  simp only [Client.with_, Objects.with_]
  have h4 := pairs_snd h3
  have hids := pairs_fst h3
  have hlt := forall₂_lt h4
  have hvals := valsOf_forall₂ h4
  have hiff : (∀ v ∈ vs, Plain.fits (2 ^ n) v.2) ↔ RefsOk c.world.entries (2 ^ n) rs := by
    rw [refsOk_iff hlt, hvals, List.forall_mem_map]
    refine forall_congr' fun v => forall_congr' fun hv => ?_
    have hv : v.2 ∈ valsOf c.world.entries rs := by rw [hvals]; exact List.mem_map.mpr ⟨v, hv, rfl⟩
    obtain ⟨r, hm, y, hy, hyv⟩ := mem_valsOf.mp hv
    rw [← hyv]
    exact fits_iff' (h.wf.entries y (List.mem_of_getElem? hy)).wf
  by_cases hf : RefsOk c.world.entries (2 ^ n) rs
  · rw [if_pos (hiff.mpr hf)]
    refine callO (new_wp h.wf hlt) ?_ ?_
    · rintro a w' ⟨-, h'⟩
      obtain ⟨rs', ha, hext, hseq, hcop⟩ := h' hf
      cases ha
      have hget : w'.seqs[c.world.seqs.length]? = some ⟨2 ^ n, arr, rs', none, none, none⟩ := by
        rw [hseq, List.getElem?_append_right (le_refl _)]; simp
      obtain ⟨f, hfm, hinj, -⟩ := hcop.count
      have hrange : ∀ y ∈ rs, c.world.entries.length ≤ f y ∧ f y < w'.entries.length := fun y hy => by
        have hm : f y ∈ rs' := by rw [hfm]; exact List.mem_map.mpr ⟨y, hy, rfl⟩
        exact ⟨hcop.fresh _ hm, hcop.lt _ hm⟩
      have hcn := h.names.copy hinj hrange x.next
      rw [Nat.zero_add] at hcn
      refine ⟨trivial, fun a b => R a b ∨ CopyNames R rs f x.next a b, ?_⟩
      have := h.ext (m := x.next + x.next) (ne := []) (nv := []) (ns := [c.world.seqs.length])
        (nsv := [⟨2 ^ n, arr, copies x.next vs, vs.map Prod.snd, none⟩]) hext (hcop.nonew.forall h.exact)
        (.of_prefix h.wf hext.grow fun t ht => by rw [hseq, List.getElem?_append_left ht])
        (R' := fun a b => R a b ∨ CopyNames R rs f x.next a b) (fun _ _ h => .inl h)
        (h.names.union hcn (Nat.zero_le _) (len_mono hext.grow) (Nat.zero_le _) (by omega)) .nil
        (.cons ⟨_, hget, by simp [viewOf, ObjSeq.view, copies_snd, hcop.vals, hvals], by
          rw [copies_fst]
          simp only [hfm]
          exact (forall₂_copy hids f x.next).imp fun _ _ h => .inr h,
          fun _ h => (by cases h), n, rfl, fun p hp => (by cases hp), fun _ => by simp [hcop.vals, hvals],
            fun _ h => (by cases h), fun _ => rfl⟩ .nil) (nodup_new h)
      simpa using this
    · rintro e w' ⟨-, h'⟩
      obtain ⟨rs', ha, -⟩ := h' hf
      cases ha
  · rw [if_neg fun h' => hf (hiff.mp h')]
    refine callO (new_wp h.wf hlt) ?_ ?_
    · rintro a w' ⟨h', -⟩
      exact absurd (h' hf).1 (by simp)
    · rintro e w' ⟨h', -⟩
      obtain ⟨h4, h5⟩ := h' hf
      cases h4
      exact ⟨rfl, R, by rw [h5]; exact h⟩

theorem stepO_getEntries (h : ORel c x R) (s : ℕ) : StepO (c.step 0 (.getEntries s)) (x.step (.getEntries s)) := by
  simp only [Client.step, Objects.step]
  refine stepO_seq h s fun r o n v hs ho hv0 hv hok hdim ha hvals => ?_
  refine callO (getSequenceEntries_wp h.wf ho) ?_ ?_
  · rintro rs w' ⟨rs', hrs, hext, hseq, hcop⟩
    cases hrs
    obtain ⟨f, hfm, hinj, -⟩ := hcop.count
    have hrange : ∀ y ∈ o.entries, c.world.entries.length ≤ f y ∧ f y < w'.entries.length := fun y hy => by
      have hm : f y ∈ rs := by rw [hfm]; exact List.mem_map.mpr ⟨y, hy, rfl⟩
      exact ⟨hcop.fresh _ hm, hcop.lt _ hm⟩
    have hcn := h.names.copy hinj hrange x.next
    rw [Nat.zero_add] at hcn
    refine ⟨hcop.vals.trans hvals.symm, fun a b => R a b ∨ CopyNames R o.entries f x.next a b, ?_⟩
    have := h.ext (m := x.next + x.next) (ne := rs) (nv := copies x.next v.entries) (ns := []) (nsv := [])
      hext (hcop.nonew.forall h.exact) (.of_prefix h.wf hext.grow fun t ht => by rw [hseq])
      (R' := fun a b => R a b ∨ CopyNames R o.entries f x.next a b) (fun _ _ h => .inl h)
      (h.names.union hcn (Nat.zero_le _) (len_mono hext.grow) (Nat.zero_le _) (by omega))
      (pairs_of (R := fun a b => R a b ∨ CopyNames R o.entries f x.next a b) (by
        rw [copies_fst, hfm]
        exact (forall₂_copy hv.ids f x.next).imp fun _ _ h => .inr h) (by rw [copies_snd, hvals, hcop.vals]) hcop.lt)
      .nil (by simpa using h.nodup)
    simpa using this
  · rintro e w' ⟨rs', hrs, -⟩
    cases hrs

theorem stepO_getLength (h : ORel c x R) (s : ℕ) : StepO (c.step 0 (.getLength s)) (x.step (.getLength s)) := by
  simp only [Client.step, Objects.step]
  refine stepO_seq h s fun r o n v hs ho hv0 hv hok hdim ha hvals => ?_
  have hlen : Seq.getLength r c.world = (.ok o.entries.length, c.world) := by
    unfold Seq.getLength
    rw [PyM.bind_of_ok (getSeq_some ho)]; rfl
  rw [(Client.call_eq).1 _ _ hlen]
  refine ⟨?_, R, by simpa using h⟩
  have := hv.ids.length_eq
  rw [List.length_map] at this
  exact this

theorem stepO_fullUnitary (h : ORel c x R) (e D : ℕ) (hq : ∃ n, D = 2 ^ n) :
    StepO (c.step 0 (.fullUnitary e D)) (x.step (.fullUnitary e D)) := by
  obtain ⟨n, rfl⟩ := hq
  simp only [Client.step, Objects.step]
  refine stepO_entry h e fun r i y hy hR hwf hex => ?_
  have key : ∀ res w', (res = y.toVal.fullUnitary 0 (2 ^ n) ∧
      ∃ o', w' = { c.world with entries := c.world.entries.set r o' } ∧ o'.toVal = y.toVal ∧ o'.Ok 0) →
      ORel { c with world := w' } x R := by
    rintro res w' ⟨-, o', rfl, hv, hok⟩
    have hg := Grow.set hy hv
    have hext : Ext 0 c.world { c.world with entries := c.world.entries.set r o' } :=
      ⟨⟨h.wf.entries.set hok, fun o ho => (h.wf.seqs o ho).grow hg⟩, hg, rfl, rfl,
        fun _ o ho => ⟨o, ho, .refl o⟩⟩
    exact h.quiet hext ((NoNew.set hy hv).forall h.exact) (.of_prefix h.wf hext.grow fun _ _ => rfl)
  by_cases hf : y.toVal.Fits n
  · rw [if_pos (fits_iff.mpr hf)]
    obtain ⟨u, h1, h2, h3⟩ := fullUnitary_op hwf hf hex
    refine callO (getFullUnitary_wp h.wf.entries hy (2 ^ n)) ?_ ?_
    · rintro u' w' hpost
      have := hpost.1
      rw [h1] at this; cases this
      refine ⟨?_, R, by simpa using key _ w' hpost⟩
      rw [log2_pow]
      exact ⟨h2.rows, h2.cols, h3⟩
    · rintro e w' hpost
      have := hpost.1
      rw [h1] at this; cases this
  · rw [if_neg fun h' => hf (fits_iff.mp h')]
    have herr : y.toVal.fullUnitary 0 (2 ^ n) = .error .assertion := EntryVal.fullUnitary_not_fits hwf hf hex
    refine callO (getFullUnitary_wp h.wf.entries hy (2 ^ n)) ?_ ?_
    · rintro u' w' hpost
      have := hpost.1
      rw [herr] at this; cases this
    · rintro e w' hpost
      have := hpost.1
      rw [herr] at this; cases this
      exact ⟨rfl, R, key _ w' hpost⟩

theorem stepO_text (h : ORel c x R) (k : TextKind) (fmt : ℕ → ℝ → String) (s : ℕ) :
    StepO (c.step 0 (.text k fmt s)) (x.step (.text k fmt s)) := by
  simp only [Client.step, Objects.step]
  refine stepO_seq h s fun r o n v hs ho hv0 hv hok hdim ha hvals => ?_
  have hr := (h.wf.seq ho).entries
  rw [hok.dim] at hr
  have hgood := refsOk_vals h.wf.entries hr h.exact
  obtain ⟨ls, hls⟩ := freshLines_exact (f := k.unitary fmt) hgood
  refine callO (text_wp h.wf ho k fmt) ?_ ?_
  · rintro t w' ⟨ht, hca⟩
    rw [hok.dim, hls] at ht
    cases ht
    refine ⟨?_, R, by simpa using h.quiet (hca.ext h.wf) (hca.nonew.forall h.exact) (.of_prefix h.wf hca.grow fun _ _ => by rw [hca.eq])⟩
    rw [freshLines_line (fun e he => (hgood e he).1) k fmt hls, hvals]
    rfl
  · rintro e w' ⟨ht, -⟩
    rw [hok.dim, hls] at ht
    cases ht

theorem stepO_combine (h : ORel c x R) (ss : List ℕ) : StepO (c.step 0 (.combine ss)) (x.step (.combine ss)) := by
  simp only [Client.step, Objects.step]
  rcases forall₂_getAll h.seqs ss with ⟨h1, h2⟩ | ⟨rs, vs, h1, h2, h3⟩
  · rw [h1, h2]; exact stepO_dangling h
  rw [h1, h2]
  simp only [Client.with_, Objects.with_]
  have hviews : List.Forall₂ (fun r v => c.world.view r = some v) rs (vs.map ObjSeq.view) := by
    clear h1 h2
    induction h3 with
    | nil => exact .nil
    | cons h _ ih =>
      obtain ⟨o, ho, hv⟩ := h
      exact .cons (view_eq_some.mpr ⟨o, ho, hv.view.symm⟩) ih
  obtain ⟨hex, hdims, hflat⟩ := forall₂_view hviews
  have hnamed : NamedSeqs R c.world rs (vs.map fun v => v.entries.map Prod.fst) := by
    clear h1 h2 hviews hex hdims hflat
    induction h3 with
    | nil => exact .nil
    | cons h _ ih =>
      obtain ⟨o, ho, hv⟩ := h
      exact .cons ⟨o, ho, hv.ids⟩ ih
  rcases vs with _ | ⟨v, vs⟩
  · cases h3
    simp only
    refine callO (combine_wp h.wf hex) ?_ ?_
    · rintro a w' ⟨h', -⟩
      exact absurd (h' fun _ => .inl rfl).1 (by simp)
    · rintro e w' ⟨h', -⟩
      obtain ⟨h4, h5⟩ := h' fun _ => .inl rfl
      cases h4
      exact ⟨rfl, R, by rw [h5]; exact h⟩
  simp only
  have hne : rs ≠ [] := by
    rintro rfl
    cases h3
  have hvn : ∃ n, v.dimension = 2 ^ n := by
    cases h3 with
    | cons h' _ =>
      obtain ⟨o, ho, hv⟩ := h'
      obtain ⟨n, hn⟩ := hv.val
      have := hv.view
      unfold viewOf ObjSeq.view at this
      injection this with h5
      exact ⟨n, h5.symm.trans hn.dim⟩
  obtain ⟨n, hn⟩ := hvn
  have hdims' : ∀ D, SeqsOk c.world D rs ↔ ∀ v' ∈ v :: vs, v'.dimension = D := by
    intro D
    rw [hdims D, List.forall_mem_map]
    exact Iff.rfl
  by_cases hd : ∀ v' ∈ v :: vs, v'.dimension = v.dimension
  · rw [if_pos hd]
    have hval : ValSeqs n c.world rs ((v :: vs).map ObjSeq.word) := by
      clear h1 h2 hviews hex hdims hflat hnamed hdims' hne
      have hd' : ∀ v' ∈ v :: vs, v'.dimension = 2 ^ n := fun v' hv' => (hd v' hv').trans hn
      clear hd hn
      generalize v :: vs = l at *
      induction h3 with
      | nil => exact .nil
      | @cons r v' rs l h _ ih =>
        obtain ⟨o, ho, hv⟩ := h
        obtain ⟨k, hk⟩ := hv.val
        have hview := hv.view
        unfold viewOf ObjSeq.view at hview
        injection hview with h5
        have : k = n := Nat.pow_right_injective (le_refl 2) (hk.dim.symm.trans (h5.trans (hd' v' (by simp))))
        subst this
        exact .cons ⟨o, _, ho, hk⟩ (ih fun y hy => hd' y (by simp [hy]))
    refine callO (combine_val h.names x.next h.wf h.exact hne hnamed hval) ?_ ?_
    · rintro t w' ⟨ht, hext, hvx, hxx, rs', p, S, hobj, hv1, hp1, hp2, hS, hids⟩
      cases ht
      rw [List.length_map] at hS
      refine ⟨trivial, fun a b => R a b ∨ S a b, ?_⟩
      have := h.ext (m := x.next + (v :: vs).length * x.next) (ne := []) (nv := []) (ns := [c.world.seqs.length])
        (nsv := [⟨v.dimension, false, copyAll x.next x.next (v :: vs), ((v :: vs).map ObjSeq.word).flatten, none⟩])
        hext hxx hvx (R' := fun a b => R a b ∨ S a b) (fun _ _ h => .inl h)
        (h.names.union hS (Nat.zero_le _) (len_mono hext.grow) (Nat.zero_le _) (by omega)) .nil
        (.cons ⟨_, hobj, by
          simp only [viewOf, ObjSeq.view, hv1, hflat, copyAll_snd, hn, Option.map_none, List.map_map]
          rfl, by
          rw [copyAll_fst]
          exact hids.imp fun _ _ h => .inr h,
          fun _ h => (by cases h), n, rfl, fun q hq => by cases hq; exact ⟨hp1, hp2⟩, fun h => (by cases h),
            fun _ h => (by cases h), fun _ => rfl⟩ .nil) (nodup_new h)
      simpa using this
    · rintro e w' ⟨ht, -⟩
      cases ht
  · rw [if_neg hd]
    have hnd : ∀ D, rs = [] ∨ ¬ SeqsOk c.world D rs := by
      intro D
      right
      rw [hdims' D]
      intro hD
      exact hd fun v' hv' => (hD v' hv').trans (hD v (by simp)).symm
    refine callO (combine_wp h.wf hex) ?_ ?_
    · rintro a w' ⟨h', -⟩
      exact absurd (h' hnd).1 (by simp)
    · rintro e w' ⟨h', -⟩
      obtain ⟨h4, h5⟩ := h' hnd
      cases h4
      exact ⟨rfl, R, by rw [h5]; exact h⟩

end

/-- Every call refines its specification. -/
theorem step_objects {c : Client} {x : Objects} {R : ℕ → ℕ → Prop} (h : ORel c x R) {op : Op} (hq : op.OnQubits) :
    StepO (c.step 0 op) (x.step op) := by
  cases op with
  | newEntry u qs => exact stepO_newEntry h u qs hq
  | newSeq D arr es => exact stepO_newSeq h D arr es hq
  | appendFirst s e b => exact stepO_appendFirst h s e b
  | appendLast s e b => exact stepO_appendLast h s e b
  | removeFirst s b => exact stepO_removeFirst h s b
  | removeLast s b => exact stepO_removeLast h s b
  | undo s => exact stepO_undo h s
  | product s => exact stepO_product h s
  | inverse s => exact stepO_inverse h s
  | combine ss => exact stepO_combine h ss
  | getEntries s => exact stepO_getEntries h s
  | getLength s => exact stepO_getLength h s
  | fullUnitary e D => exact stepO_fullUnitary h e D hq
  | text k fmt s => exact stepO_text h k fmt s

/-- Every program refines its specification. -/
theorem run_objects {c : Client} {x : Objects} {R : ℕ → ℕ → Prop} (h : ORel c x R) (ops : List Op)
    (hq : ∀ op ∈ ops, op.OnQubits) :
    List.Forall₂ SameResult (c.run 0 ops).1 (x.run ops).1 ∧ ∃ R', ORel (c.run 0 ops).2 (x.run ops).2 R' := by
  induction ops generalizing c x R with
  | nil => exact ⟨.nil, R, h⟩
  | cons op ops ih =>
    obtain ⟨h1, R1, h2⟩ := step_objects h (hq op (by simp))
    obtain ⟨h3, h4⟩ := ih h2 fun y hy => hq y (by simp [hy])
    exact ⟨.cons h1 h3, h4⟩

theorem objects_start (rng : Rng) : ORel (Client.start rng) .start (fun _ _ => False) where
  wf := ⟨by simp [Client.start, EntriesOk], by simp [Client.start]⟩
  exact := by simp [Client.start, ExactEs]
  names := ⟨by simp, by simp, by simp⟩
  ents := .nil
  seqs := .nil
  nodup := by simp [Client.start]

end Stoq
