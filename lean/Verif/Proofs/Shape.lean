import Verif.Proofs.Frame

/-! The list structure of sequences, for every matrix arithmetic and every dimension: whenever a call succeeds,
its effect on the entries, undo lists and handles is the specified one. -/

namespace Stoq

open World Matrix

theorem listMax_mem {a : List ℕ} (h : a ≠ []) : listMax a ∈ a := by
  by_contra hn
  have : listMax a < listMax a := by
    refine listMax_lt h fun q hq => lt_of_le_of_ne (le_listMax hq) ?_
    rintro rfl; exact hn hq
  exact absurd this (lt_irrefl _)

theorem fits_iff_fitsDim {e : EntryVal} (he : e.WF) {D : ℕ} : Plain.fits D e ↔ FitsDim e D := by
  have hmem : listMax e.applyTo ∈ e.applyTo := listMax_mem he.nonempty
  constructor
  · intro h
    have h2 := h _ hmem
    refine ⟨?_, h2⟩
    have hf : e.Fits (listMax e.applyTo + 1) := fun q hq => Nat.lt_succ_of_le (le_listMax hq)
    exact (he.dim_le hf).trans h2
  · intro h q hq
    exact (Nat.pow_le_pow_right (by norm_num) (Nat.succ_le_succ (le_listMax hq))).trans h.2

theorem full_fits {τ : Arith} {e : EntryVal} (he : e.WF) {D : ℕ} {u : Unitary} (h : e.fullUnitary τ D = .ok u) :
    Plain.fits D e := by
  refine (fits_iff_fitsDim he).mpr ?_
  unfold EntryVal.fullUnitary at h
  obtain ⟨h1, h⟩ := assertE_bind_eq_ok.mp h
  obtain ⟨_, -, h⟩ := bind_eq_ok.mp h
  obtain ⟨_, -, h⟩ := bind_eq_ok.mp h
  obtain ⟨-, h⟩ := assertE_bind_eq_ok.mp h
  obtain ⟨P, hP, -⟩ := bind_eq_ok.mp h
  unfold EntryVal.getPermuteMatrix at hP
  obtain ⟨-, hP⟩ := assertE_bind_eq_ok.mp hP
  obtain ⟨h2, -⟩ := assertE_bind_eq_ok.mp hP
  exact ⟨h1, h2⟩

/-- The client's objects hold the plain lists. -/
structure PRel (τ : Arith) (c : Client) (p : Plain) : Prop where
  ok : c.Ok τ
  ents : List.Forall₂ (EntryIs c.world.entries) c.entries p.entries
  seqs : List.Forall₂ (fun r v => c.world.view r = some v) c.seqs p.seqs

theorem PRel.step {τ : Arith} {c : Client} {p : Plain} (h : PRel τ c p) {s r : ℕ} {w' : World} {o o' : SeqObj}
    (hs : c.seqs[s]? = some r) (ho : c.world.seqs[r]? = some o) (st : Step τ c.world w' r o o')
    {v' : SeqView} (hv : viewOf w'.entries o' = v') :
    PRel τ { c with world := w' } { p with seqs := p.seqs.set s v' } where
  ok := (Frame.step h.ok hs st).ok
  ents := h.ents.imp fun _ _ he => he.grow st.grow
  seqs := by
    refine forall₂_set h.seqs hs h.ok.nodup (view_eq_some.mpr ⟨o', st.get ho, hv.symm⟩) ?_
    intro x y _ hx hxy
    exact st.view_ne h.ok.wf hx hxy

theorem PRel.ext {τ : Arith} {t : Option ℕ} {c : Client} {p : Plain} (h : PRel τ c p) {w' : World}
    (he : Ext τ c.world w') {ne ns : List ℕ} {nv : List EntryVal} {nsv : List SeqView}
    (hf : Frame τ t c ⟨w', c.entries ++ ne, c.seqs ++ ns⟩)
    (h1 : List.Forall₂ (EntryIs w'.entries) ne nv)
    (h2 : List.Forall₂ (fun r v => w'.view r = some v) ns nsv) :
    PRel τ ⟨w', c.entries ++ ne, c.seqs ++ ns⟩ ⟨p.entries ++ nv, p.seqs ++ nsv⟩ where
  ok := hf.ok
  ents := forall₂_append' (h.ents.imp fun _ _ x => x.grow he.grow) h1
  seqs := forall₂_append' (h.seqs.imp fun _ _ x => he.view h.ok.wf x) h2

theorem PRel.quiet {τ : Arith} {c : Client} {p : Plain} (h : PRel τ c p) {w' : World} (he : Ext τ c.world w') :
    PRel τ { c with world := w' } p where
  ok := (Frame.quiet (t := none) h.ok he).ok
  ents := h.ents.imp fun _ _ x => x.grow he.grow
  seqs := h.seqs.imp fun _ _ x => he.view h.ok.wf x

/-- If the call succeeded, the specified call does, and the states correspond. -/
def ShapeOk (τ : Arith) (x : Except PyErr Client.Obs × Client) (y : Except PyErr Plain.Obs × Plain) : Prop :=
  ∀ obs, x.1 = .ok obs → (∃ obs', y.1 = .ok obs') ∧ PRel τ x.2 y.2

theorem call_shape {α : Type} {τ : Arith} {c : Client} {m : PyM World α} {obs : α → World → Client.Obs}
    {newE newS : α → List ℕ} {Q : Except PyErr α → World → Prop} (h : Wp m Q c.world)
    {y : Except PyErr Plain.Obs × Plain}
    (hok : ∀ a w, Q (.ok a) w → (∃ obs', y.1 = .ok obs') ∧
      PRel τ ⟨w, c.entries ++ newE a, c.seqs ++ newS a⟩ y.2) :
    ShapeOk τ (c.call m obs newE newS) y := by
  unfold Wp at h
  unfold Client.call
  intro obs hobs
  rcases hm : m c.world with ⟨e | a, w⟩ <;> rw [hm] at h <;> simp only [hm] at hobs ⊢
  · cases hobs
  · exact hok a w h

theorem shape_seq {τ : Arith} {c : Client} {p : Plain} (h : PRel τ c p) (s : ℕ)
    {f : ℕ → Except PyErr Client.Obs × Client} {g : SeqView → Except PyErr Plain.Obs × Plain}
    (hfg : ∀ r o, c.seqs[s]? = some r → c.world.seqs[r]? = some o → p.seqs[s]? = some (viewOf c.world.entries o) →
      ShapeOk τ (f r) (g (viewOf c.world.entries o))) :
    ShapeOk τ (Client.with_ (c.seqs[s]?) c f) (Plain.with_ (p.seqs[s]?) p g) := by
  rcases forall₂_getElem? h.seqs s with ⟨h1, h2⟩ | ⟨r, v, h1, h2, h3⟩
  · rw [h1, h2]; intro obs hobs; cases hobs
  · obtain ⟨o, ho, rfl⟩ := view_eq_some.mp h3
    rw [h1, h2]
    exact hfg r o h1 ho h2

theorem shape_entry {τ : Arith} {c : Client} {p : Plain} (h : PRel τ c p) (e : ℕ)
    {f : ℕ → Except PyErr Client.Obs × Client} {g : EntryVal → Except PyErr Plain.Obs × Plain}
    (hfg : ∀ r x, c.world.entries[r]? = some x → x.toVal.WF → ShapeOk τ (f r) (g x.toVal)) :
    ShapeOk τ (Client.with_ (c.entries[e]?) c f) (Plain.with_ (p.entries[e]?) p g) := by
  rcases forall₂_getElem? h.ents e with ⟨h1, h2⟩ | ⟨r, v, h1, h2, x, h3, rfl⟩
  · rw [h1, h2]; intro obs hobs; cases hobs
  · rw [h1, h2]
    exact hfg r x h3 (h.ok.wf.entries x (List.mem_of_getElem? h3)).wf

theorem shape_change {τ : Arith} {c : Client} {p : Plain} (h : PRel τ c p) {s r : ℕ} {o : SeqObj}
    (hs : c.seqs[s]? = some r) (ho : c.world.seqs[r]? = some o)
    {b : Bool} {upd : List ℕ} {m : PyM World Unit} {newVals : List EntryVal}
    (hm : Wp m (fun res w' => ∃ o', ModPost τ c.world r o b upd res w' o') c.world)
    (hupd : valsOf c.world.entries upd = newVals) (hlt : ∀ x ∈ upd, x < c.world.entries.length) :
    ShapeOk τ (c.call m (fun _ _ => .unit) (fun _ => []) (fun _ => []))
      (p.change s (viewOf c.world.entries o) b newVals) := by
  unfold Plain.change
  refine call_shape hm ?_
  rintro a w' ⟨o', h1, h2⟩
  cases harr : o.isArray with
  | true => exact absurd rfl ((h2 harr).fail)
  | false =>
    have hmp := h1 harr
    simp only [viewOf, harr, Bool.false_eq_true, if_false]
    refine ⟨⟨_, rfl⟩, ?_⟩
    have := h.step hs ho hmp.step (v' := ⟨o.dimension, false, newVals,
      if b then some (valsOf c.world.entries o.entries) else o.previousEntries.map (valsOf c.world.entries)⟩) (by
        unfold viewOf
        rw [hmp.undo, hmp.step.dim, hmp.step.arr, harr, hmp.ok rfl, valsOf_grow hlt hmp.step.grow, hupd])
    simpa using this

theorem shape_append {τ : Arith} {c : Client} {p : Plain} (h : PRel τ c p) (s e : ℕ) (b : Bool)
    {m : ℕ → ℕ → PyM World Unit} {upd : List ℕ → ℕ → List ℕ} {updV : List EntryVal → EntryVal → List EntryVal}
    (hm : ∀ r r' o x, c.world.seqs[r]? = some o → c.world.entries[r']? = some x →
      Wp (m r r') (fun res w' => ∃ o', AppendPost τ c.world r o x b (upd o.entries r') res w' o') c.world)
    (hupd : ∀ rs r' x, c.world.entries[r']? = some x →
      valsOf c.world.entries (upd rs r') = updV (valsOf c.world.entries rs) x.toVal)
    (hmem : ∀ rs r' x, x ∈ upd rs r' → x = r' ∨ x ∈ rs) :
    ShapeOk τ (Client.with_ (c.seqs[s]?) c fun s => Client.with_ (c.entries[e]?) c fun e =>
        c.call (m s e) (fun _ _ => .unit) (fun _ => []) (fun _ => []))
      (Plain.with_ (p.seqs[s]?) p fun v => Plain.with_ (p.entries[e]?) p fun g =>
        open Classical in
        if Plain.fits v.dimension g then p.change s v b (updV v.entries g) else (.error .assertion, p)) := by
  refine shape_seq h s fun r o hs ho hp => shape_entry h e fun r' x hx' hwf => ?_
  have hw := hm r r' o x ho hx'
  by_cases hf : FitsDim x.toVal o.dimension
  · rw [if_pos (show Plain.fits (viewOf c.world.entries o).dimension x.toVal from (fits_iff_fitsDim hwf).mpr hf)]
    refine shape_change h hs ho (hw.mono fun res w' ⟨o', h'⟩ => ⟨o', h'.accept hf⟩) (hupd _ _ _ hx') ?_
    intro y hy
    rcases hmem _ _ _ hy with rfl | hy
    · exact (List.getElem?_eq_some_iff.mp hx').1
    · exact (h.ok.wf.seq ho).entries.lt y hy
  · refine call_shape hw ?_
    rintro a w' ⟨o', h'⟩
    exact absurd (h'.reject hf).1 (by simp)

theorem shape_remove {τ : Arith} {c : Client} {p : Plain} (h : PRel τ c p) (s : ℕ) (b : Bool)
    {m : ℕ → PyM World Unit} {upd : List ℕ → List ℕ} {updV : List EntryVal → List EntryVal}
    (hm : ∀ r o, c.world.seqs[r]? = some o →
      Wp (m r) (fun res w' => ∃ o', RemovePost τ c.world r o b (upd o.entries) res w' o') c.world)
    (hupd : ∀ rs, (∀ x ∈ rs, x < c.world.entries.length) →
      valsOf c.world.entries (upd rs) = updV (valsOf c.world.entries rs))
    (hmem : ∀ rs x, x ∈ upd rs → x ∈ rs) :
    ShapeOk τ (Client.with_ (c.seqs[s]?) c fun s =>
        c.call (m s) (fun _ _ => .unit) (fun _ => []) (fun _ => []))
      (Plain.with_ (p.seqs[s]?) p fun v =>
        open Classical in
        if v.entries = [] then (.ok .unit, p) else p.change s v b (updV v.entries)) := by
  refine shape_seq h s fun r o hs ho hp => ?_
  have hw := hm r o ho
  have hlt := (h.ok.wf.seq ho).entries.lt
  have hiff : (viewOf c.world.entries o).entries = [] ↔ o.entries = [] := by
    show valsOf c.world.entries o.entries = [] ↔ _
    rw [← List.length_eq_zero_iff, valsOf_length hlt, List.length_eq_zero_iff]
  by_cases he : o.entries = []
  · rw [if_pos (hiff.mpr he)]
    refine call_shape hw ?_
    rintro a w' ⟨o', h'⟩
    obtain ⟨-, h2, -⟩ := h'.empty he
    refine ⟨⟨_, rfl⟩, ?_⟩
    rw [h2]; simpa using h
  · rw [if_neg fun h' => he (hiff.mp h')]
    exact shape_change h hs ho (hw.mono fun res w' ⟨o', h'⟩ => ⟨o', h'.some he⟩) (hupd _ hlt)
      fun y hy => hlt y (hmem _ y hy)

/-- Successful calls other than `inverse()` have the specified effect. -/
theorem step_shape {τ : Arith} {c : Client} {p : Plain} (h : PRel τ c p) {op : Op} (hinv : ∀ s, op ≠ .inverse s) :
    ShapeOk τ (c.step τ op) (p.step op) := by
  cases op with
  | newEntry u qs =>
    simp only [Client.step, Plain.step]
    unfold Entry.new
    rcases hv : EntryVal.new u qs with err | v
    · rw [(Client.call_eq (m := _)).2 err c.world
        (show (PyM.lift (Except.error err) >>= fun v => allocEntry ⟨v, []⟩) c.world = _ from rfl)]
      intro obs hobs; cases hobs
    · rw [(Client.call_eq).1 c.world.entries.length
        { c.world with entries := c.world.entries ++ [⟨v, []⟩] }
        (show (PyM.lift (Except.ok v) >>= fun v => allocEntry ⟨v, []⟩) c.world = _ from rfl)]
      have hok : EntriesOk τ [(⟨v, []⟩ : EntryObj)] := by
        intro x hx
        rw [List.mem_singleton] at hx; subst hx
        exact ⟨(entryNew_ok hv).1, by simp⟩
      have hext := Ext.appendEntries h.ok.wf hok
      intro obs _
      refine ⟨⟨_, rfl⟩, ?_⟩
      have hfr := Frame.ext (t := none) h.ok hext (ne := [c.world.entries.length]) (ns := []) (by simp) (by simp)
        (by simpa using h.ok.nodup)
      have := h.ext hext hfr (nv := [v]) (nsv := []) (.cons ⟨⟨v, []⟩, by simp, rfl⟩ .nil) .nil
      simpa using this
  | newSeq D arr es =>
    simp only [Client.step, Plain.step]
    rcases forall₂_getAll h.ents es with ⟨h1, h2⟩ | ⟨rs, vs, h1, h2, h3⟩
    · rw [h1, h2]; intro obs hobs; cases hobs
    rw [h1, h2]
    simp only [Client.with_, Plain.with_]
    have hlt := forall₂_lt h3
    have hvals := valsOf_forall₂ h3
    have hiff : (∀ v ∈ vs, Plain.fits D v) ↔ RefsOk c.world.entries D rs := by
      rw [refsOk_iff hlt, hvals]
      refine forall_congr' fun v => forall_congr' fun hv => ?_
      rw [← hvals] at hv
      obtain ⟨r, hm, x, hx, rfl⟩ := mem_valsOf.mp hv
      exact fits_iff_fitsDim (h.ok.wf.entries x (List.mem_of_getElem? hx)).wf
    refine call_shape (new_wp h.ok.wf hlt) ?_
    rintro a w' ⟨h4, h'⟩
    by_cases hf : RefsOk c.world.entries D rs
    · rw [if_pos (hiff.mpr hf)]
      obtain ⟨rs', ha, hext, hseq, hcop⟩ := h' hf
      cases ha
      refine ⟨⟨_, rfl⟩, ?_⟩
      have hget : w'.seqs[c.world.seqs.length]? = some ⟨D, arr, rs', none, none, none⟩ := by
        rw [hseq, List.getElem?_append_right (le_refl _)]; simp
      have := h.ext hext (Frame.newSeq (t := none) h.ok hext hget) (nv := []) (nsv := [⟨D, arr, vs, none⟩]) .nil
        (.cons (view_eq_some.mpr ⟨_, hget, by simp [viewOf, hcop.vals, hvals]⟩) .nil)
      simpa using this
    · exact absurd (h4 hf).1 (by simp)
  | appendFirst s e b =>
    exact shape_append h s e b (upd := fun rs r => r :: rs) (updV := fun vs v => v :: vs)
      (fun r r' o x ho hx => appendFirst_wp h.ok.wf ho hx b) (fun rs r' x hx => valsOf_cons hx rs)
      (fun rs r' x hx => List.mem_cons.mp hx)
  | appendLast s e b =>
    exact shape_append h s e b (upd := fun rs r => rs ++ [r]) (updV := fun vs v => vs ++ [v])
      (fun r r' o x ho hx => appendLast_wp h.ok.wf ho hx b)
      (fun rs r' x hx => by rw [valsOf_append, valsOf_cons hx, valsOf_nil])
      (fun rs r' x hx => by
        rcases List.mem_append.mp hx with hx | hx
        · exact .inr hx
        · exact .inl (List.mem_singleton.mp hx))
  | removeFirst s b =>
    exact shape_remove h s b (upd := List.tail) (updV := List.tail)
      (fun r o ho => removeFirst_wp h.ok.wf ho b)
      (fun rs hrs => valsOf_tail hrs) (fun rs x hx => List.mem_of_mem_tail hx)
  | removeLast s b =>
    exact shape_remove h s b (upd := List.dropLast) (updV := List.dropLast)
      (fun r o ho => removeLast_wp h.ok.wf ho b)
      (fun rs hrs => valsOf_dropLast hrs) (fun rs x hx => List.mem_of_mem_dropLast hx)
  | undo s =>
    simp only [Client.step, Plain.step]
    refine shape_seq h s fun r o hs ho hp => ?_
    refine call_shape (undo_wp h.ok.wf ho) ?_
    rintro a w' ⟨o', st, h1, h2, -⟩
    rcases hprev : o.previousEntries with _ | ps
    · exact absurd (h1 hprev).1 (by simp)
    · simp only [viewOf, hprev, Option.map_some]
      obtain ⟨-, h4, rfl⟩ := h2 ps hprev
      refine ⟨⟨_, rfl⟩, ?_⟩
      have := h.step hs ho st rfl
      simpa [viewOf, h4] using this
  | product s =>
    simp only [Client.step, Plain.step]
    refine shape_seq h s fun r o hs ho hp => ?_
    refine call_shape (product_wp h.ok.wf ho) ?_
    rintro u w' ⟨o', hpp⟩
    exact ⟨⟨_, rfl⟩, by simpa using h.quiet (hpp.step.ext h.ok.wf ho hpp.same)⟩
  | inverse s => exact absurd rfl (hinv s)
  | combine ss =>
    simp only [Client.step, Plain.step]
    rcases forall₂_getAll h.seqs ss with ⟨h1, h2⟩ | ⟨rs, vs, h1, h2, h3⟩
    · rw [h1, h2]; intro obs hobs; cases hobs
    rw [h1, h2]
    simp only [Client.with_, Plain.with_]
    obtain ⟨hex, hdims, hflat⟩ := forall₂_view h3
    refine call_shape (combine_wp h.ok.wf hex) ?_
    rintro t w' ⟨h4, h5⟩
    cases h3 with
    | nil => exact absurd (h4 fun _ => .inl rfl).1 (by simp)
    | @cons r v rs vs hrv htl =>
      simp only
      by_cases hd : ∀ v' ∈ v :: vs, v'.dimension = v.dimension
      · rw [if_pos hd]
        have hpost := h5 v.dimension (by simp) ((hdims v.dimension).mpr hd)
        obtain ⟨rfl, rs', q, hobj, hvals, -, -⟩ := hpost.ok t rfl
        refine ⟨⟨_, rfl⟩, ?_⟩
        have := h.ext hpost.ext (Frame.newSeq (t := none) h.ok hpost.ext hobj) (nv := [])
          (nsv := [⟨v.dimension, false, ((v :: vs).map SeqView.entries).flatten, none⟩]) .nil
          (.cons (view_eq_some.mpr ⟨_, hobj, by simp only [viewOf, hvals, hflat, Option.map_none]⟩) .nil)
        simpa using this
      · have hnd : ∀ D, r :: rs = [] ∨ ¬ SeqsOk c.world D (r :: rs) := by
          intro D
          right
          rw [hdims D]
          intro hD
          exact hd fun v' hv' => (hD v' hv').trans (hD v (by simp)).symm
        exact absurd (h4 hnd).1 (by simp)
  | getEntries s =>
    simp only [Client.step, Plain.step]
    refine shape_seq h s fun r o hs ho hp => ?_
    refine call_shape (getSequenceEntries_wp h.ok.wf ho) ?_
    rintro rs w' ⟨rs', hrs, hext, hseq, hcop⟩
    cases hrs
    refine ⟨⟨_, rfl⟩, ?_⟩
    have hfr := Frame.ext (t := none) h.ok hext (ne := rs) (ns := []) hcop.lt (by simp) (by simpa using h.ok.nodup)
    have := h.ext hext hfr (nv := valsOf c.world.entries o.entries) (nsv := [])
      (by rw [← hcop.vals]; exact forall₂_valsOf hcop.lt) .nil
    simpa [viewOf] using this
  | getLength s =>
    simp only [Client.step, Plain.step]
    refine shape_seq h s fun r o hs ho hp => ?_
    have hlen : Seq.getLength r c.world = (.ok o.entries.length, c.world) := by
      unfold Seq.getLength
      rw [PyM.bind_of_ok (getSeq_some ho)]; rfl
    rw [(Client.call_eq).1 _ _ hlen]
    exact fun obs _ => ⟨⟨_, rfl⟩, by simpa using h⟩
  | fullUnitary e D =>
    simp only [Client.step, Plain.step]
    refine shape_entry h e fun r x hx hwf => ?_
    refine call_shape (getFullUnitary_wp h.ok.wf.entries hx D) ?_
    rintro u w' ⟨hu, hw'⟩
    refine ⟨?_, ?_⟩
    · rw [if_pos (full_fits hwf hu.symm)]; exact ⟨_, rfl⟩
    · rw [if_pos (full_fits hwf hu.symm)]
      simpa using h.quiet (getFullUnitary_ext h.ok.wf hx hw')
  | text k fmt s =>
    simp only [Client.step, Plain.step]
    refine shape_seq h s fun r o hs ho hp => ?_
    refine call_shape (text_wp h.ok.wf ho k fmt) ?_
    rintro t w' ⟨-, hw'⟩
    exact ⟨⟨_, rfl⟩, by simpa using h.quiet (hw'.ext h.ok.wf)⟩

/-- Programs in which every call succeeds have the specified effect. -/
theorem run_shape {τ : Arith} {c : Client} {p : Plain} (h : PRel τ c p) (ops : List Op)
    (hinv : ∀ s, Op.inverse s ∉ ops) (hok : ∀ x ∈ (c.run τ ops).1, ∃ obs, x = .ok obs) :
    PRel τ (c.run τ ops).2 (p.run ops).2 := by
  induction ops generalizing c p with
  | nil => exact h
  | cons op ops ih =>
    obtain ⟨obs, hobs⟩ := hok (c.step τ op).1 (by simp [Client.run])
    refine ih (step_shape h (fun s hs => hinv s (by simp [hs])) obs hobs).2
      (fun s hs => hinv s (by simp [hs])) ?_
    intro x hx
    exact hok x (by simp [Client.run, hx])

theorem prel_start (τ : Arith) (rng : Rng) : PRel τ (Client.start rng) ⟨[], []⟩ := ⟨ok_start τ rng, .nil, .nil⟩

end Stoq
