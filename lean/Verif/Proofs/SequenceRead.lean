import Verif.Proofs.Sequence

/-! `product`, the constructor, `get_sequence_entries`: operations that read or allocate. -/

namespace Stoq

open World Matrix

/-! ## Reading and allocating -/

/-- Nothing observable changed except that a product may have been stored. -/
structure SameButProd (o o' : SeqObj) : Prop where
  dim : o'.dimension = o.dimension
  arr : o'.isArray = o.isArray
  entries : o'.entries = o.entries
  prev : o'.previousEntries = o.previousEntries
  prevProd : o'.previousProduct = o.previousProduct
  prod : o.product ≠ none → o'.product = o.product

theorem SameButProd.refl (o : SeqObj) : SameButProd o o := ⟨rfl, rfl, rfl, rfl, rfl, fun _ => rfl⟩
theorem SameButProd.trans {a b c : SeqObj} (h : SameButProd a b) (h' : SameButProd b c) : SameButProd a c :=
  ⟨h'.dim.trans h.dim, h'.arr.trans h.arr, h'.entries.trans h.entries, h'.prev.trans h.prev,
    h'.prevProd.trans h.prevProd, fun hp => (h'.prod (by rw [h.prod hp]; exact hp)).trans (h.prod hp)⟩

/-- The heap grew; existing objects kept their observable content. -/
structure Ext (τ : Arith) (w w' : World) : Prop where
  wf : w'.WF τ
  grow : Grow w.entries w'.entries
  betas : w'.betas = w.betas
  rng : w'.rng = w.rng
  seqs : ∀ (t : ℕ) (o : SeqObj), w.seqs[t]? = some o → ∃ o', w'.seqs[t]? = some o' ∧ SameButProd o o'

theorem Ext.refl {τ : Arith} {w : World} (h : w.WF τ) : Ext τ w w :=
  ⟨h, .refl _, rfl, rfl, fun _ o ho => ⟨o, ho, .refl o⟩⟩

theorem Ext.trans {τ : Arith} {w w' w'' : World} (h : Ext τ w w') (h' : Ext τ w' w'') : Ext τ w w'' where
  wf := h'.wf
  grow := h.grow.trans h'.grow
  betas := h'.betas.trans h.betas
  rng := h'.rng.trans h.rng
  seqs t o ho := by
    obtain ⟨o1, h1, e1⟩ := h.seqs t o ho
    obtain ⟨o2, h2, e2⟩ := h'.seqs t o1 h1
    exact ⟨o2, h2, e1.trans e2⟩

theorem Ext.len {τ : Arith} {w w' : World} (h : Ext τ w w') : w.seqs.length ≤ w'.seqs.length := by
  by_contra hlt
  push Not at hlt
  obtain ⟨o', h1, -⟩ := h.seqs (w'.seqs.length) _ (List.getElem?_eq_getElem hlt)
  simp at h1

theorem Step.ext {τ : Arith} {w w' : World} {s : ℕ} {o o' : SeqObj} (h : Step τ w w' s o o') (hw : w.WF τ)
    (hs : w.seqs[s]? = some o) (ho : SameButProd o o') : Ext τ w w' where
  wf := h.wf hw
  grow := h.grow
  betas := h.betas
  rng := h.rng
  seqs t x hx := by
    by_cases ht : t = s
    · subst ht; rw [hs] at hx; cases hx
      exact ⟨o', h.get hs, ho⟩
    · exact ⟨x, by rw [h.get_ne ht]; exact hx, .refl x⟩

/-- Stored products are right in the sequences selected by `P` (if their dimension is a power of two). -/
def Coh (P : ℕ → Prop) (w : World) : Prop :=
  ∀ t o, P t → w.seqs[t]? = some o → ∀ n, o.dimension = 2 ^ n → ProdOk w.entries n o

theorem Coh.mono {P Q : ℕ → Prop} {w : World} (h : Coh Q w) (hPQ : ∀ t, P t → Q t) : Coh P w :=
  fun t o ht => h t o (hPQ t ht)

theorem Step.coh {τ : Arith} {w w' : World} {s : ℕ} {o o' : SeqObj} {P : ℕ → Prop} (h : Step τ w w' s o o')
    (hw : w.WF τ) (hs : w.seqs[s]? = some o)
    (hc : Coh P w) (ho : P s → ∀ n, o'.dimension = 2 ^ n → ProdOk w'.entries n o') : Coh P w' := by
  intro t x ht hx n hn
  by_cases hts : t = s
  · subst hts; rw [h.get hs] at hx; cases hx
    exact ho ht n hn
  · rw [h.get_ne hts] at hx
    exact (hc t x ht hx n hn).grow (hw.seq hx) h.grow

theorem Coh.exact0 {w : World} {P : ℕ → Prop} (hc : Coh P w) (he : ExactEs w.entries) {s : ℕ} {o : SeqObj}
    (hP : P s) (hs : w.seqs[s]? = some o) {n : ℕ} (hn : o.dimension = 2 ^ n) : Exact0 0 n w o :=
  ⟨rfl, hn, he, hc s o hP hs n hn⟩

/-! ## `product` -/

/-- The product of the entries computed from scratch. -/
noncomputable def freshLoop (τ : Arith) (D : ℕ) : List EntryVal → Unitary → Except PyErr Unitary
  | [], acc => .ok acc
  | e :: es, acc => do
    let u ← e.fullUnitary τ D
    let acc' ← acc.leftMultiply τ u
    freshLoop τ D es acc'

noncomputable def freshProduct (τ : Arith) (D : ℕ) (es : List EntryVal) : Except PyErr Unitary := do
  let p0 ← Unitary.new τ D
  freshLoop τ D es p0

theorem freshLoop_exact {n : ℕ} {es : List EntryVal} (h : ∀ e ∈ es, e.WF ∧ e.Fits n ∧ e.Exact) {acc : Unitary}
    (ha : acc.Exact (2 ^ n)) : ∃ p, freshLoop 0 (2 ^ n) es acc = .ok p ∧ p.Exact (2 ^ n) ∧
      p.matrix.toMatrix (2 ^ n) = circuit n es * acc.matrix.toMatrix (2 ^ n) := by
  induction es generalizing acc with
  | nil => exact ⟨acc, rfl, ha, by simp [circuit]⟩
  | cons e es ih =>
    obtain ⟨h1, h2, h3⟩ := h e (by simp)
    obtain ⟨f, hf, hfe, hfm⟩ := fullUnitary_op h1 h2 h3
    obtain ⟨a', ha', hae, ham⟩ := leftMultiply_exact ha hfe
    obtain ⟨p, hp, hpe, hpm⟩ := ih (fun x hx => h x (by simp [hx])) hae
    refine ⟨p, ?_, hpe, ?_⟩
    · unfold freshLoop; rw [hf, ok_bind, ha', ok_bind, hp]
    · rw [hpm, ham, hfm, circuit, Matrix.mul_assoc]

theorem freshProduct_exact {n : ℕ} {es : List EntryVal} (h : ∀ e ∈ es, e.WF ∧ e.Fits n ∧ e.Exact) :
    ∃ p, freshProduct 0 (2 ^ n) es = .ok p ∧ p.Exact (2 ^ n) ∧ p.matrix.toMatrix (2 ^ n) = circuit n es := by
  have hpos : 0 < 2 ^ n := by positivity
  have hid : (Unitary.plain (Arr.identity (2 ^ n))).Exact (2 ^ n) :=
    plain_exact hpos rfl rfl (by rw [Arr.toMatrix_identity]; exact one_mem _)
  obtain ⟨p, h1, h2, h3⟩ := freshLoop_exact h hid
  refine ⟨p, ?_, h2, ?_⟩
  · unfold freshProduct; rw [Unitary.new_default_eq hpos, ok_bind, h1]
  · rw [h3]; simp [Unitary.plain, Arr.toMatrix_identity]

/-- Only entry caches changed. -/
structure Caches (τ : Arith) (w w' : World) : Prop where
  eq : w' = { w with entries := w'.entries }
  grow : Grow w.entries w'.entries
  nonew : NoNew w.entries w'.entries
  ok : EntriesOk τ w'.entries

theorem productLoop_wp {τ : Arith} {D : ℕ} (rs : List ℕ) (acc : Unitary) (w : World)
    (hw : EntriesOk τ w.entries) (hrs : ∀ r ∈ rs, r < w.entries.length) :
    Wp (Seq.productLoop τ D rs acc) (fun res w' => res = freshLoop τ D (valsOf w.entries rs) acc ∧
      Caches τ w w') w := by
  induction rs generalizing acc w with
  | nil =>
    unfold Seq.productLoop
    exact Wp.pure ⟨rfl, rfl, .refl _, .refl _, hw⟩
  | cons r rs ih =>
    unfold Seq.productLoop
    have hr := List.getElem?_eq_getElem (hrs r (by simp))
    have hrs' : ∀ x ∈ rs, x < w.entries.length := fun x hx => hrs x (by simp [hx])
    refine Wp.bind ((getFullUnitary_wp hw hr D).mono ?_)
    rintro res w1 ⟨hres, x', rfl, hv, hok⟩
    have hg := Grow.set hr hv
    have hc : Caches τ w { w with entries := w.entries.set r x' } := ⟨rfl, hg, NoNew.set hr hv, hw.set hok⟩
    rw [valsOf_cons hr]
    unfold freshLoop
    rcases res with err | u
    · simp only
      rw [← hres]
      exact ⟨rfl, hc⟩
    · simp only
      rw [← hres, ok_bind]
      refine Wp.lift_bind (fun a' ha' => ?_) fun err herr => ?_
      · rw [ha', ok_bind]
        have := ih a' { w with entries := w.entries.set r x' } (hw.set hok) (by simpa using hrs')
        refine this.mono ?_
        rintro res w2 ⟨h1, h2⟩
        rw [valsOf_grow hrs' hg] at h1
        exact ⟨h1, by rw [h2.eq], hg.trans h2.grow, hc.nonew.trans h2.nonew, h2.ok⟩
      · rw [herr]; exact ⟨rfl, hc⟩

/-- Outcome of `product`. -/
structure ProductPost (τ : Arith) (w : World) (s : ℕ) (o : SeqObj) (res : Except PyErr Unitary) (w' : World)
    (o' : SeqObj) : Prop where
  step : Step τ w w' s o o'
  same : SameButProd o o'
  cached : ∀ p, o.product = some p → res = .ok p ∧ w' = w
  fresh : o.product = none → res = freshProduct τ o.dimension (valsOf w.entries o.entries)
  stored : ∀ p, res = .ok p → o'.product = some p
  failed : ∀ e, res = .error e → o'.product = o.product
  exact : ∀ n, Exact0 τ n w o → ∃ p, res = .ok p ∧ p.Exact (2 ^ n) ∧
    p.matrix.toMatrix (2 ^ n) = circuit n (valsOf w.entries o.entries) ∧ ProdOk w'.entries n o'

theorem refsOk_vals {τ : Arith} {es : List EntryObj} {rs : List ℕ} {n : ℕ} (hw : EntriesOk τ es)
    (h : RefsOk es (2 ^ n) rs) (he : ExactEs es) : ∀ e ∈ valsOf es rs, e.WF ∧ e.Fits n ∧ e.Exact := by
  intro e hev
  obtain ⟨r, hr, x, hx, rfl⟩ := mem_valsOf.mp hev
  obtain ⟨x', hx', hf⟩ := h r hr
  rw [hx] at hx'; cases hx'
  have hm := List.mem_of_getElem? hx
  exact ⟨(hw x hm).wf, hf.fits, he x hm⟩

theorem product_wp {τ : Arith} {w : World} {s : ℕ} {o : SeqObj} (hw : w.WF τ) (hs : w.seqs[s]? = some o) :
    Wp (Seq.product τ s) (fun res w' => ∃ o', ProductPost τ w s o res w' o') w := by
  have hso := hw.seq hs
  unfold Seq.product
  refine Wp.getSeq_bind hs ?_
  rcases hp : o.product with _ | p
  · simp only
    refine Wp.lift_bind (fun p0 hp0 => ?_) fun err herr => ?_
    · refine Wp.bind ((productLoop_wp o.entries p0 w hw.entries hso.entries.lt).mono ?_)
      rintro res w1 ⟨hres, hc⟩
      have hfresh : res = freshProduct τ o.dimension (valsOf w.entries o.entries) := by
        unfold freshProduct; rw [hp0, ok_bind]; exact hres
      have st1 : Step τ w w1 s o o :=
        ⟨by rw [set_getElem?_self hs]; exact hc.eq, hc.grow, hc.nonew, hc.ok, hso.grow hc.grow, rfl, rfl⟩
      have hex : ∀ n, Exact0 τ n w o → ∃ p, res = .ok p ∧ p.Exact (2 ^ n) ∧
          p.matrix.toMatrix (2 ^ n) = circuit n (valsOf w.entries o.entries) := by
        intro n hx
        have hτ := hx.tau; subst hτ
        have hr := hso.entries
        rw [hx.dim] at hfresh hr
        obtain ⟨p, h1, h2⟩ := freshProduct_exact (refsOk_vals hw.entries hr hx.es)
        exact ⟨p, hfresh.trans h1, h2⟩
      rcases res with err | p
      · simp only
        refine ⟨o, st1, .refl o, fun p h => (by rw [hp] at h; cases h), fun _ => hfresh,
          fun p h => (by cases h), fun _ _ => rfl, fun n hx => ?_⟩
        obtain ⟨p, h, -⟩ := hex n hx; cases h
      · simp only
        refine Wp.setSeq_bind (Wp.pure ⟨{ o with product := some p }, st1.trans (.setSeq hc.ok ?_ rfl rfl),
          ⟨rfl, rfl, rfl, rfl, rfl, fun h => absurd hp h⟩, fun p h => (by rw [hp] at h; cases h),
          fun _ => hfresh, fun q hq => (by cases hq; rfl), fun e h => (by cases h), fun n hx => ?_⟩)
        · exact ⟨hso.entries.grow hc.grow, fun ps hps => (hso.prev ps hps).grow hc.grow⟩
        · obtain ⟨p', h, h2, h3⟩ := hex n hx; cases h
          refine ⟨p, rfl, h2, h3, ⟨fun q hq => ?_, fun q hq => ?_, fun h => (by cases h)⟩⟩
          · cases hq
            exact ⟨h2, h3.trans (congrArg (circuit n) (hso.entries.vals_grow hc.grow).symm)⟩
          · simp only at hq; rw [hx.prod.none hp] at hq; cases hq
    · refine ⟨o, .refl hw hs, .refl o, fun p h => (by rw [hp] at h; cases h), fun _ => ?_,
        fun p h => (by cases h), fun _ _ => rfl, fun n hx => ?_⟩
      · unfold freshProduct; rw [herr]; rfl
      · have hτ := hx.tau; subst hτ
        rw [hx.dim, Unitary.new_default_eq (by positivity)] at herr; cases herr
  · refine Wp.pure ⟨o, .refl hw hs, .refl o, fun q h => (by rw [hp] at h; cases h; exact ⟨rfl, rfl⟩),
      fun h => (by rw [hp] at h; cases h), fun q hq => (by cases hq; exact hp), fun e h => (by cases h),
      fun n hx => ?_⟩
    obtain ⟨h1, h2⟩ := hx.prod.prod p hp
    exact ⟨p, rfl, h1, h2, hx.prod⟩

/-! ## Allocation -/

theorem Ext.allocSeq {τ : Arith} {w : World} (hw : w.WF τ) {o : SeqObj} (ho : SeqOk w.entries o) :
    Ext τ w { w with seqs := w.seqs ++ [o] } where
  wf := ⟨hw.entries, fun x hx => by
    rcases List.mem_append.mp hx with hx | hx
    · exact hw.seqs x hx
    · rw [List.mem_singleton] at hx; subst hx; exact ho⟩
  grow := .refl _
  betas := rfl
  rng := rfl
  seqs t x hx := ⟨x, by
    rw [List.getElem?_append_left (List.getElem?_eq_some_iff.mp hx).1]; exact hx, .refl x⟩

theorem World.WF.appendEntries {τ : Arith} {w : World} (hw : w.WF τ) {l : List EntryObj} (hl : EntriesOk τ l) :
    ({ w with entries := w.entries ++ l } : World).WF τ :=
  ⟨hw.entries.append hl, fun o ho => (hw.seqs o ho).grow (.append _ _)⟩

theorem Ext.appendEntries {τ : Arith} {w : World} (hw : w.WF τ) {l : List EntryObj} (hl : EntriesOk τ l) :
    Ext τ w { w with entries := w.entries ++ l } :=
  ⟨hw.appendEntries hl, .append _ _, rfl, rfl, fun _ o ho => ⟨o, ho, .refl o⟩⟩

/-- A list of fresh copies of `rs`. -/
structure Copied (w : World) (rs rs' : List ℕ) (w' : World) : Prop where
  nonew : NoNew w.entries w'.entries
  vals : valsOf w'.entries rs' = valsOf w.entries rs
  fresh : ∀ r ∈ rs', w.entries.length ≤ r
  lt : ∀ r ∈ rs', r < w'.entries.length
  count : ∃ f : ℕ → ℕ, rs' = rs.map f ∧ (∀ a ∈ rs, ∀ b ∈ rs, f a = f b → a = b) ∧
    ∀ r ∈ rs, (w'.entries[f r]?).map EntryObj.toVal = (w.entries[r]?).map EntryObj.toVal

theorem Copied.nodup {w w' : World} {rs rs' : List ℕ} (h : Copied w rs rs' w') (hn : rs.Nodup) : rs'.Nodup := by
  obtain ⟨f, rfl, h2, -⟩ := h.count
  exact hn.map_on fun a ha b hb => h2 a ha b hb

theorem Copied.refs {w w' : World} {rs rs' : List ℕ} (h : Copied w rs rs' w') {D : ℕ}
    (hr : RefsOk w.entries D rs) : RefsOk w'.entries D rs' := by
  obtain ⟨f, rfl, h2, h3⟩ := h.count
  intro r' hr'
  obtain ⟨r, hrm, rfl⟩ := List.mem_map.mp hr'
  obtain ⟨x, hx, hf⟩ := hr r hrm
  have := h3 r hrm
  rw [hx] at this
  obtain ⟨y, hy, hyv⟩ := Option.map_eq_some_iff.mp this
  exact ⟨y, hy, hyv ▸ hf⟩

/-- `copy.deepcopy` of a list of entries. -/
theorem deepcopy_ext {τ : Arith} {w : World} {rs : List ℕ} (hw : w.WF τ) (hrs : ∀ r ∈ rs, r < w.entries.length) :
    Wp (Entry.deepcopy rs) (fun res w' => ∃ rs', res = .ok rs' ∧ Ext τ w w' ∧ w'.seqs = w.seqs ∧
      Copied w rs rs' w') w := by
  refine (deepcopy_wp hrs).mono ?_
  rintro res w1 ⟨f, l, rfl, rfl, hl, hinj, hf⟩
  refine ⟨_, rfl, Ext.appendEntries hw fun x hx => hw.entries x (hl x hx), rfl,
    ⟨.append fun x hx => ⟨x, hl x hx, rfl⟩, valsOf_map fun r hr => by rw [(hf r hr).2], ?_, ?_,
      f, rfl, hinj, fun r hr => by rw [(hf r hr).2]⟩⟩
  · intro r' hr'
    obtain ⟨r, hr, rfl⟩ := List.mem_map.mp hr'
    exact (hf r hr).1
  · intro r' hr'
    obtain ⟨r, hr, rfl⟩ := List.mem_map.mp hr'
    have := (hf r hr).2
    rw [List.getElem?_eq_getElem (hrs r hr)] at this
    exact (List.getElem?_eq_some_iff.mp this).1

theorem getSequenceEntries_wp {τ : Arith} {w : World} {s : ℕ} {o : SeqObj} (hw : w.WF τ)
    (hs : w.seqs[s]? = some o) :
    Wp (Seq.getSequenceEntries s) (fun res w' => ∃ rs', res = .ok rs' ∧ Ext τ w w' ∧ w'.seqs = w.seqs ∧
      Copied w o.entries rs' w') w := by
  unfold Seq.getSequenceEntries
  exact Wp.getSeq_bind hs (deepcopy_ext hw (hw.seq hs).entries.lt)

theorem forM_assertIsEntryValid {w : World} {D : ℕ} {rs : List ℕ} (hrs : ∀ r ∈ rs, r < w.entries.length) :
    (RefsOk w.entries D rs → rs.forM (Seq.assertIsEntryValid D) w = (.ok (), w)) ∧
    (¬ RefsOk w.entries D rs → rs.forM (Seq.assertIsEntryValid D) w = (.error .assertion, w)) := by
  induction rs with
  | nil => exact ⟨fun _ => rfl, fun h => absurd (fun r hr => by simp at hr) h⟩
  | cons r rs ih =>
    obtain ⟨ih1, ih2⟩ := ih fun x hx => hrs x (by simp [hx])
    have hr := List.getElem?_eq_getElem (hrs r (by simp))
    have hcons : RefsOk w.entries D (r :: rs) ↔
        FitsDim (w.entries[r]'(hrs r (by simp))).toVal D ∧ RefsOk w.entries D rs := by
      constructor
      · intro h
        refine ⟨?_, fun x hx => h x (by simp [hx])⟩
        obtain ⟨o, ho, hf⟩ := h r (by simp)
        rw [hr] at ho; cases ho; exact hf
      · rintro ⟨h1, h2⟩ x hx
        rcases List.mem_cons.mp hx with rfl | hx
        · exact ⟨_, hr, h1⟩
        · exact h2 x hx
    have hunf : (r :: rs).forM (Seq.assertIsEntryValid D) =
        (Seq.assertIsEntryValid D r >>= fun _ => rs.forM (Seq.assertIsEntryValid D) : PyM World PUnit) := rfl
    rw [hcons, hunf]
    constructor
    · rintro ⟨h1, h2⟩
      rw [PyM.bind_of_ok (by rw [assertIsEntryValid_eq hr, if_pos h1])]
      exact ih1 h2
    · intro h
      by_cases h1 : FitsDim (w.entries[r]'(hrs r (by simp))).toVal D
      · rw [PyM.bind_of_ok (by rw [assertIsEntryValid_eq hr, if_pos h1])]
        exact ih2 fun h2 => h ⟨h1, h2⟩
      · rw [PyM.bind_of_error (by rw [assertIsEntryValid_eq hr, if_neg h1])]

/-- `UnitarySequence(dimension, entries)`. -/
theorem new_wp {τ : Arith} {w : World} {D : ℕ} {arr : Bool} {rs : List ℕ} (hw : w.WF τ)
    (hrs : ∀ r ∈ rs, r < w.entries.length) :
    Wp (Seq.new D arr rs) (fun res w' =>
      (¬ RefsOk w.entries D rs → res = .error .assertion ∧ w' = w) ∧
      (RefsOk w.entries D rs → ∃ rs', res = .ok w.seqs.length ∧ Ext τ w w' ∧
        w'.seqs = w.seqs ++ [⟨D, arr, rs', none, none, none⟩] ∧ Copied w rs rs' w')) w := by
  unfold Seq.new
  obtain ⟨h1, h2⟩ := forM_assertIsEntryValid (D := D) hrs
  by_cases h : RefsOk w.entries D rs
  · refine Wp.bind_ok (h1 h) (Wp.bind ((deepcopy_ext hw hrs).mono ?_))
    rintro res w1 ⟨rs', rfl, hext, hseq, hcop⟩
    refine ⟨fun h' => absurd h h', fun _ => ⟨rs', by rw [← hseq]; rfl, hext.trans (Ext.allocSeq hext.wf ?_), ?_,
      hcop.nonew, hcop.vals, hcop.fresh, hcop.lt, hcop.count⟩⟩
    · exact ⟨hcop.refs h, fun _ h => (by cases h)⟩
    · show w1.seqs ++ _ = _
      rw [hseq]
  · exact Wp.bind_error (h2 h) ⟨fun _ => ⟨rfl, rfl⟩, fun h' => absurd h' h⟩

end Stoq
