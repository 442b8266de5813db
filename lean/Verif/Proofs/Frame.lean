import Verif.Proofs.History

/-! What every API call leaves alone, for every matrix arithmetic and every outcome. -/

namespace Stoq

open World Matrix

/-- The client's handles denote distinct existing objects of a well-formed heap. -/
structure Client.Ok (τ : Arith) (c : Client) : Prop where
  wf : c.world.WF τ
  entries : ∀ r ∈ c.entries, r < c.world.entries.length
  seqs : ∀ r ∈ c.seqs, r < c.world.seqs.length
  nodup : c.seqs.Nodup

/-- `c'` differs from `c` at most in the sequence with handle `t`, and may have more objects. -/
structure Frame (τ : Arith) (t : Option ℕ) (c c' : Client) : Prop where
  ok : c'.Ok τ
  entries : c.entries <+: c'.entries
  seqs : c.seqs <+: c'.seqs
  grow : Grow c.world.entries c'.world.entries
  view : ∀ i r v, t ≠ some i → c.seqs[i]? = some r → c.world.view r = some v → c'.world.view r = some v
  rng : c'.world.rng = c.world.rng
  betas : c'.world.betas = c.world.betas

theorem Grow.lt {es es' : List EntryObj} (h : Grow es es') {r : ℕ} (hr : r < es.length) : r < es'.length := by
  obtain ⟨o, h1, -⟩ := h r _ (List.getElem?_eq_getElem hr)
  exact (List.getElem?_eq_some_iff.mp h1).1

theorem Frame.refl {τ : Arith} {t : Option ℕ} {c : Client} (h : c.Ok τ) : Frame τ t c c :=
  ⟨h, List.prefix_rfl, List.prefix_rfl, .refl _, fun _ _ _ _ _ h => h, rfl, rfl⟩

theorem Frame.ext {τ : Arith} {t : Option ℕ} {c : Client} (h : c.Ok τ) {w' : World} (he : Ext τ c.world w')
    {ne ns : List ℕ} (h1 : ∀ r ∈ ne, r < w'.entries.length) (h2 : ∀ r ∈ ns, r < w'.seqs.length)
    (h3 : (c.seqs ++ ns).Nodup) : Frame τ t c ⟨w', c.entries ++ ne, c.seqs ++ ns⟩ where
  ok :=
    { wf := he.wf
      entries := by
        intro r hr
        rcases List.mem_append.mp hr with hr | hr
        · exact Grow.lt he.grow (h.entries r hr)
        · exact h1 r hr
      seqs := by
        intro r hr
        rcases List.mem_append.mp hr with hr | hr
        · obtain ⟨o', h4, -⟩ := he.seqs r _ (List.getElem?_eq_getElem (h.seqs r hr))
          exact (List.getElem?_eq_some_iff.mp h4).1
        · exact h2 r hr
      nodup := h3 }
  entries := List.prefix_append _ _
  seqs := List.prefix_append _ _
  grow := he.grow
  view := fun _ _ _ _ _ hv => he.view h.wf hv
  rng := he.rng
  betas := he.betas

theorem Frame.quiet {τ : Arith} {t : Option ℕ} {c : Client} (h : c.Ok τ) {w' : World} (he : Ext τ c.world w') :
    Frame τ t c { c with world := w' } := by
  simpa using Frame.ext (t := t) h he (ne := []) (ns := []) (by simp) (by simp) (by simpa using h.nodup)

theorem Frame.newSeq {τ : Arith} {t : Option ℕ} {c : Client} (h : c.Ok τ) {w' : World} (he : Ext τ c.world w')
    {o : SeqObj} (hget : w'.seqs[c.world.seqs.length]? = some o) :
    Frame τ t c ⟨w', c.entries ++ [], c.seqs ++ [c.world.seqs.length]⟩ := by
  refine Frame.ext h he (by simp) ?_ ?_
  · intro r hr
    rw [List.mem_singleton] at hr; subst hr
    exact (List.getElem?_eq_some_iff.mp hget).1
  · rw [List.nodup_append]
    refine ⟨h.nodup, by simp, ?_⟩
    intro a ha b hb hab
    rw [List.mem_singleton] at hb
    have := h.seqs a ha
    omega

theorem Frame.step {τ : Arith} {c : Client} (h : c.Ok τ) {w' : World} {s r : ℕ} {o o' : SeqObj}
    (hs : c.seqs[s]? = some r) (st : Step τ c.world w' r o o') : Frame τ (some s) c { c with world := w' } where
  ok :=
    { wf := st.wf h.wf
      entries := fun r hr => Grow.lt st.grow (h.entries r hr)
      seqs := fun r hr => by rw [st.seqs, List.length_set]; exact h.seqs r hr
      nodup := h.nodup }
  entries := List.prefix_rfl
  seqs := List.prefix_rfl
  grow := st.grow
  view := by
    intro i r' v hi hr' hv
    refine st.view_ne h.wf ?_ hv
    rintro rfl
    have hlt := (List.getElem?_eq_some_iff.mp hs).1
    have := (List.nodup_iff_getElem?_ne_getElem?.mp h.nodup)
    rcases lt_trichotomy s i with hlt' | heq | hgt
    · exact this s i hlt' (List.getElem?_eq_some_iff.mp hr').1 (by rw [hs, hr'])
    · exact hi (by rw [heq])
    · exact this i s hgt hlt (by rw [hs, hr'])
  rng := st.rng
  betas := st.betas

/-- A frame for a call. -/
theorem call_frame {α : Type} {τ : Arith} {t : Option ℕ} {c : Client} {m : PyM World α} {obs : α → World → Client.Obs}
    {newE newS : α → List ℕ} {Q : Except PyErr α → World → Prop} (h : Wp m Q c.world)
    (hok : ∀ a w, Q (.ok a) w → Frame τ t c ⟨w, c.entries ++ newE a, c.seqs ++ newS a⟩)
    (herr : ∀ e w, Q (.error e) w → Frame τ t c { c with world := w }) :
    Frame τ t c (c.call m obs newE newS).2 := by
  unfold Wp at h
  unfold Client.call
  rcases hm : m c.world with ⟨e | a, w⟩ <;> rw [hm] at h
  · exact herr e w h
  · exact hok a w h

theorem with_frame {α : Type} {τ : Arith} {t : Option ℕ} {c : Client} (h : c.Ok τ) {x : Option α}
    {f : α → Except PyErr Client.Obs × Client} (hf : ∀ a, x = some a → Frame τ t c (f a).2) :
    Frame τ t c (Client.with_ x c f).2 := by
  unfold Client.with_
  rcases x with _ | a
  · exact .refl h
  · exact hf a rfl

theorem getAll_mem {α : Type} {l : List α} {is : List ℕ} {as : List α} (h : getAll l is = some as) :
    ∀ a ∈ as, a ∈ l := by
  induction is generalizing as with
  | nil => simp only [getAll, Option.some.injEq] at h; subst h; simp
  | cons i is ih =>
    unfold getAll at h
    split at h
    · rename_i a as' ha has
      simp only [Option.some.injEq] at h
      subst h
      intro r hr
      rcases List.mem_cons.mp hr with rfl | hr
      · exact List.mem_of_getElem? ha
      · exact ih has r hr
    · cases h

/-- A unit call that changes at most sequence `s`. -/
theorem unit_frame {τ : Arith} {c : Client} (h : c.Ok τ) {s r : ℕ} {o : SeqObj} {m : PyM World Unit}
    {obs : Unit → World → Client.Obs} (hs : c.seqs[s]? = some r)
    (hm : Wp m (fun _ w' => w' = c.world ∨ ∃ o', Step τ c.world w' r o o') c.world) :
    Frame τ (some s) c (c.call m obs (fun _ => []) (fun _ => [])).2 := by
  refine call_frame hm ?_ ?_
  · rintro _ w (rfl | ⟨o', st⟩)
    · simpa using Frame.refl (t := some s) h
    · simpa using Frame.step h hs st
  · rintro _ w (rfl | ⟨o', st⟩)
    · exact Frame.refl (t := some s) h
    · exact Frame.step h hs st

theorem ModPost.step {τ : Arith} {w w' : World} {s : ℕ} {o o' : SeqObj} {b : Bool} {upd : List ℕ}
    {res : Except PyErr Unit} (h : ModPost τ w s o b upd res w' o') : Step τ w w' s o o' := by
  cases harr : o.isArray with
  | true => exact (h.2 harr).step
  | false => exact (h.1 harr).step

theorem AppendPost.frame {τ : Arith} {w w' : World} {s : ℕ} {o o' : SeqObj} {x : EntryObj} {b : Bool} {upd : List ℕ}
    {res : Except PyErr Unit} (h : AppendPost τ w s o x b upd res w' o') :
    w' = w ∨ ∃ o', Step τ w w' s o o' := by
  by_cases hf : FitsDim x.toVal o.dimension
  · exact .inr ⟨o', (h.accept hf).step⟩
  · exact .inl (h.reject hf).2.1

theorem RemovePost.frame {τ : Arith} {w w' : World} {s : ℕ} {o o' : SeqObj} {b : Bool} {upd : List ℕ}
    {res : Except PyErr Unit} (h : RemovePost τ w s o b upd res w' o') :
    w' = w ∨ ∃ o', Step τ w w' s o o' := by
  by_cases hf : o.entries = []
  · exact .inl (h.empty hf).2.1
  · exact .inr ⟨o', (h.some hf).step⟩

theorem getFullUnitary_ext {τ : Arith} {w w' : World} (hw : w.WF τ) {r : ℕ} {x : EntryObj}
    (hx : w.entries[r]? = some x)
    (h : ∃ o', w' = { w with entries := w.entries.set r o' } ∧ o'.toVal = x.toVal ∧ o'.Ok τ) : Ext τ w w' := by
  obtain ⟨o', rfl, hv, hok⟩ := h
  have hg := Grow.set hx hv
  exact ⟨⟨hw.entries.set hok, fun o ho => (hw.seqs o ho).grow hg⟩, hg, rfl, rfl, fun _ o ho => ⟨o, ho, .refl o⟩⟩

/-- Every call, on every argument and with every outcome, changes at most the sequence it is a change of. -/
theorem step_frame {τ : Arith} {c : Client} (h : c.Ok τ) (op : Op) : Frame τ op.changes c (c.step τ op).2 := by
  have seqAt : ∀ {s r : ℕ}, c.seqs[s]? = some r → ∃ o, c.world.seqs[r]? = some o := fun hs =>
    ⟨_, List.getElem?_eq_getElem (h.seqs _ (List.mem_of_getElem? hs))⟩
  have entAt : ∀ {s r : ℕ}, c.entries[s]? = some r → ∃ o, c.world.entries[r]? = some o := fun hs =>
    ⟨_, List.getElem?_eq_getElem (h.entries _ (List.mem_of_getElem? hs))⟩
  cases op with
  | newEntry u qs =>
    simp only [Client.step]
    unfold Entry.new
    refine call_frame (Q := fun res w => (∀ e, res = .error e → w = c.world) ∧
      ∀ r, res = .ok r → r = c.world.entries.length ∧ ∃ x : EntryObj, x.Ok τ ∧
        w = { c.world with entries := c.world.entries ++ [x] }) ?_ ?_ ?_
    · refine Wp.lift_bind (fun v hv => ?_) fun e _ => ⟨fun _ _ => rfl, fun r hr => (by cases hr)⟩
      refine ⟨fun e he => (by cases he), fun r hr => ?_⟩
      cases hr
      exact ⟨rfl, ⟨v, []⟩, ⟨(entryNew_ok hv).1, by simp⟩, rfl⟩
    · rintro r w ⟨-, hr⟩
      obtain ⟨rfl, x, hx, rfl⟩ := hr r rfl
      have hext := Ext.appendEntries h.wf (l := [x]) (by
        intro y hy; rw [List.mem_singleton] at hy; subst hy; exact hx)
      refine Frame.ext h hext ?_ (by simp) (by simpa using h.nodup)
      intro r hr
      rw [List.mem_singleton] at hr; subst hr
      simp
    · rintro e w ⟨he, -⟩
      rw [he e rfl]; exact .refl h
  | newSeq D arr es =>
    simp only [Client.step]
    refine with_frame h fun rs hrs => ?_
    have hlt : ∀ r ∈ rs, r < c.world.entries.length := fun r hr => h.entries r (getAll_mem hrs r hr)
    refine call_frame (new_wp h.wf hlt) ?_ ?_
    · rintro a w' ⟨h1, h2⟩
      by_cases hf : RefsOk c.world.entries D rs
      · obtain ⟨rs', ha, hext, hseq, -⟩ := h2 hf
        cases ha
        exact Frame.newSeq h hext (o := ⟨D, arr, rs', none, none, none⟩) (by
          rw [hseq, List.getElem?_append_right (le_refl _)]; simp)
      · exact absurd (h1 hf).1 (by simp)
    · rintro e w' ⟨h1, h2⟩
      by_cases hf : RefsOk c.world.entries D rs
      · obtain ⟨rs', ha, -⟩ := h2 hf
        cases ha
      · rw [(h1 hf).2]; exact .refl h
  | appendFirst s e b =>
    refine with_frame h fun r hr => with_frame h fun r' hr' => ?_
    obtain ⟨o, ho⟩ := seqAt hr
    obtain ⟨x, hx⟩ := entAt hr'
    exact unit_frame h hr ((appendFirst_wp h.wf ho hx b).mono fun _ _ ⟨_, h⟩ => h.frame)
  | appendLast s e b =>
    refine with_frame h fun r hr => with_frame h fun r' hr' => ?_
    obtain ⟨o, ho⟩ := seqAt hr
    obtain ⟨x, hx⟩ := entAt hr'
    exact unit_frame h hr ((appendLast_wp h.wf ho hx b).mono fun _ _ ⟨_, h⟩ => h.frame)
  | removeFirst s b =>
    refine with_frame h fun r hr => ?_
    obtain ⟨o, ho⟩ := seqAt hr
    exact unit_frame h hr ((removeFirst_wp h.wf ho b).mono fun _ _ ⟨_, h⟩ => h.frame)
  | removeLast s b =>
    refine with_frame h fun r hr => ?_
    obtain ⟨o, ho⟩ := seqAt hr
    exact unit_frame h hr ((removeLast_wp h.wf ho b).mono fun _ _ ⟨_, h⟩ => h.frame)
  | undo s =>
    refine with_frame h fun r hr => ?_
    obtain ⟨o, ho⟩ := seqAt hr
    exact unit_frame h hr ((undo_wp h.wf ho).mono fun _ _ ⟨o', st, _⟩ => .inr ⟨o', st⟩)
  | product s =>
    refine with_frame h fun r hr => ?_
    obtain ⟨o, ho⟩ := seqAt hr
    refine call_frame (product_wp h.wf ho) ?_ ?_
    · rintro u w' ⟨o', hp⟩
      simpa using Frame.quiet (t := (Op.product s).changes) h (hp.step.ext h.wf ho hp.same)
    · rintro u w' ⟨o', hp⟩
      exact Frame.quiet h (hp.step.ext h.wf ho hp.same)
  | inverse s =>
    refine with_frame h fun r hr => ?_
    obtain ⟨o, ho⟩ := seqAt hr
    refine call_frame (inverse_wp h.wf ho) ?_ ?_
    · intro t w' hp
      obtain ⟨rfl, -, p, p', f, hobj, -⟩ := hp.ok t rfl
      exact Frame.newSeq h hp.ext hobj
    · intro e w' hp
      exact Frame.quiet h hp.ext
  | combine ss =>
    refine with_frame h fun rs hrs => ?_
    have hex : ∀ r ∈ rs, ∃ o, c.world.seqs[r]? = some o := fun r hr =>
      ⟨_, List.getElem?_eq_getElem (h.seqs r (getAll_mem hrs r hr))⟩
    refine call_frame (combine_wp h.wf hex) ?_ ?_
    · rintro t w' ⟨h1, h2⟩
      by_cases hd : ∀ D, rs = [] ∨ ¬ SeqsOk c.world D rs
      · exact absurd (h1 hd).1 (by simp)
      · push Not at hd
        obtain ⟨D, hne, hD⟩ := hd
        have hp := h2 D hne hD
        obtain ⟨rfl, rs', q, hobj, -⟩ := hp.ok t rfl
        exact Frame.newSeq h hp.ext hobj
    · rintro t w' ⟨h1, h2⟩
      by_cases hd : ∀ D, rs = [] ∨ ¬ SeqsOk c.world D rs
      · rw [(h1 hd).2]; exact .refl h
      · push Not at hd
        obtain ⟨D, hne, hD⟩ := hd
        exact Frame.quiet h (h2 D hne hD).ext
  | getEntries s =>
    refine with_frame h fun r hr => ?_
    obtain ⟨o, ho⟩ := seqAt hr
    refine call_frame (getSequenceEntries_wp h.wf ho) ?_ ?_
    · rintro rs w' ⟨rs', hrs, hext, hseq, hcop⟩
      cases hrs
      exact Frame.ext h hext hcop.lt (by simp) (by simpa using h.nodup)
    · rintro e w' ⟨rs', hrs, -⟩
      cases hrs
  | getLength s =>
    refine with_frame h fun r hr => ?_
    obtain ⟨o, ho⟩ := seqAt hr
    have hlen : Seq.getLength r c.world = (.ok o.entries.length, c.world) := by
      unfold Seq.getLength
      rw [PyM.bind_of_ok (getSeq_some ho)]; rfl
    rw [(Client.call_eq).1 _ _ hlen]
    simpa using Frame.refl (t := (Op.getLength s).changes) h
  | fullUnitary e D =>
    refine with_frame h fun r hr => ?_
    obtain ⟨x, hx⟩ := entAt hr
    refine call_frame (getFullUnitary_wp h.wf.entries hx D) ?_ ?_
    · rintro u w' ⟨-, hw'⟩
      simpa using Frame.quiet (t := (Op.fullUnitary e D).changes) h (getFullUnitary_ext h.wf hx hw')
    · rintro u w' ⟨-, hw'⟩
      exact Frame.quiet h (getFullUnitary_ext h.wf hx hw')
  | text k fmt s =>
    refine with_frame h fun r hr => ?_
    obtain ⟨o, ho⟩ := seqAt hr
    refine call_frame (text_wp h.wf ho k fmt) ?_ ?_
    · rintro t w' ⟨-, hw'⟩
      simpa using Frame.quiet (t := (Op.text k fmt s).changes) h (hw'.ext h.wf)
    · rintro t w' ⟨-, hw'⟩
      exact Frame.quiet h (hw'.ext h.wf)

theorem ok_start (τ : Arith) (rng : Rng) : (Client.start rng).Ok τ :=
  ⟨⟨by simp [Client.start, EntriesOk], by simp [Client.start]⟩, by simp [Client.start], by simp [Client.start],
    by simp [Client.start]⟩

theorem run_ok {τ : Arith} {c : Client} (h : c.Ok τ) (ops : List Op) : (c.run τ ops).2.Ok τ := by
  induction ops generalizing c with
  | nil => exact h
  | cons op ops ih => exact ih (step_frame h op).ok

theorem getElem?_of_prefix {α : Type} {l l' : List α} (h : l <+: l') {i : ℕ} {a : α} (hi : l[i]? = some a) :
    l'[i]? = some a := by
  obtain ⟨k, rfl⟩ := h
  rw [List.getElem?_append_left (List.getElem?_eq_some_iff.mp hi).1]; exact hi

theorem Frame.entry {τ : Arith} {t : Option ℕ} {c c' : Client} (h : Frame τ t c c') {i : ℕ} {v : EntryVal}
    (hv : c.entry i = some v) : c'.entry i = some v := by
  unfold Client.entry at *
  obtain ⟨r, h1, h2⟩ := Option.bind_eq_some_iff.mp hv
  obtain ⟨x, h3, rfl⟩ := Option.map_eq_some_iff.mp h2
  obtain ⟨x', h4, h5⟩ := h.grow r x h3
  rw [getElem?_of_prefix h.entries h1]
  simp [h4, h5]

theorem Frame.seq {τ : Arith} {t : Option ℕ} {c c' : Client} (h : Frame τ t c c') {i : ℕ} {v : SeqView}
    (ht : t ≠ some i) (hv : c.seq i = some v) : c'.seq i = some v := by
  unfold Client.seq at *
  obtain ⟨r, h1, h2⟩ := Option.bind_eq_some_iff.mp hv
  rw [getElem?_of_prefix h.seqs h1]
  exact h.view i r v ht h1 h2

theorem run_entry {τ : Arith} {c : Client} (h : c.Ok τ) (ops : List Op) {i : ℕ} {v : EntryVal}
    (hv : c.entry i = some v) : (c.run τ ops).2.entry i = some v := by
  induction ops generalizing c with
  | nil => exact hv
  | cons op ops ih => exact ih (step_frame h op).ok ((step_frame h op).entry hv)

theorem run_seq {τ : Arith} {c : Client} (h : c.Ok τ) (ops : List Op) {i : ℕ} {v : SeqView}
    (hops : ∀ op ∈ ops, op.changes ≠ some i) (hv : c.seq i = some v) : (c.run τ ops).2.seq i = some v := by
  induction ops generalizing c with
  | nil => exact hv
  | cons op ops ih =>
    exact ih (step_frame h op).ok (fun x hx => hops x (by simp [hx]))
      ((step_frame h op).seq (hops op (by simp)) hv)

end Stoq
