import Verif.Proofs.Heap

/-! In-place operations of `UnitarySequence` on the heap. -/

namespace Stoq

open World Matrix

theorem circuit_append (n : ℕ) (xs ys : List EntryVal) :
    circuit n (xs ++ ys) = circuit n ys * circuit n xs := by
  induction xs with
  | nil => simp [circuit]
  | cons x xs ih => simp [circuit, ih, Matrix.mul_assoc]

theorem circuit_singleton (n : ℕ) (e : EntryVal) : circuit n [e] = e.op n := by simp [circuit]

theorem op_mem_su {e : EntryVal} {n : ℕ} (h : e.WF) (hf : e.Fits n) (he : e.Exact) :
    e.op n ∈ specialUnitaryGroup (Fin (2 ^ n)) ℂ := embed_mem_su h.nodup hf he.2.2.2

theorem op_mul_ct {e : EntryVal} {n : ℕ} (h : e.WF) (hf : e.Fits n) (he : e.Exact) :
    e.op n * (e.op n)ᴴ = 1 := mem_unitaryGroup_iff.mp (mem_specialUnitaryGroup_iff.mp (op_mem_su h hf he)).1

theorem op_ct_mul {e : EntryVal} {n : ℕ} (h : e.WF) (hf : e.Fits n) (he : e.Exact) :
    (e.op n)ᴴ * e.op n = 1 := mem_unitaryGroup_iff'.mp (mem_specialUnitaryGroup_iff.mp (op_mem_su h hf he)).1

theorem circuit_mem_su {n : ℕ} {es : List EntryVal} (h : ∀ e ∈ es, e.WF ∧ e.Fits n ∧ e.Exact) :
    circuit n es ∈ specialUnitaryGroup (Fin (2 ^ n)) ℂ := by
  induction es with
  | nil => exact one_mem _
  | cons e es ih =>
    obtain ⟨h1, h2, h3⟩ := h e (by simp)
    exact mul_mem (ih fun x hx => h x (by simp [hx])) (op_mem_su h1 h2 h3)

/-! ## Invariants -/

/-- All references held by a sequence object are valid and fit. -/
structure SeqOk (es : List EntryObj) (o : SeqObj) : Prop where
  entries : RefsOk es o.dimension o.entries
  prev : ∀ ps, o.previousEntries = some ps → RefsOk es o.dimension ps

theorem SeqOk.grow {es es' : List EntryObj} {o : SeqObj} (h : SeqOk es o) (hg : Grow es es') : SeqOk es' o :=
  ⟨h.entries.grow hg, fun ps hps => (h.prev ps hps).grow hg⟩

/-- Well-formed heap. -/
structure World.WF (τ : Arith) (w : World) : Prop where
  entries : EntriesOk τ w.entries
  seqs : ∀ o ∈ w.seqs, SeqOk w.entries o

theorem World.WF.seq {τ : Arith} {w : World} (h : w.WF τ) {s : ℕ} {o : SeqObj} (hs : w.seqs[s]? = some o) :
    SeqOk w.entries o := h.seqs o (List.mem_of_getElem? hs)

/-- Every entry value on the heap is exactly unitary. -/
def ExactEs (es : List EntryObj) : Prop := ∀ o ∈ es, o.toVal.Exact

/-- Stored products are the products of the stored entries. -/
structure ProdOk (es : List EntryObj) (n : ℕ) (o : SeqObj) : Prop where
  prod : ∀ p, o.product = some p → p.Exact (2 ^ n) ∧ p.matrix.toMatrix (2 ^ n) = circuit n (valsOf es o.entries)
  prev : ∀ p, o.previousProduct = some p → ∃ ps, o.previousEntries = some ps ∧
    p.Exact (2 ^ n) ∧ p.matrix.toMatrix (2 ^ n) = circuit n (valsOf es ps)
  none : o.product = none → o.previousProduct = none

theorem ProdOk.grow {es es' : List EntryObj} {o : SeqObj} {n : ℕ} (h : ProdOk es n o) (hs : SeqOk es o)
    (hg : Grow es es') : ProdOk es' n o where
  prod p hp := by rw [hs.entries.vals_grow hg]; exact h.prod p hp
  prev p hp := by
    obtain ⟨ps, h1, h2, h3⟩ := h.prev p hp
    exact ⟨ps, h1, h2, by rw [(hs.prev ps h1).vals_grow hg]; exact h3⟩
  none := h.none

/-- Sequence `s` was changed from `o` to `o'`; apart from that only caches changed and objects were added. -/
structure Step (τ : Arith) (w w' : World) (s : ℕ) (o o' : SeqObj) : Prop where
  eq : w' = { w with entries := w'.entries, seqs := w.seqs.set s o' }
  grow : Grow w.entries w'.entries
  nonew : NoNew w.entries w'.entries
  ok : EntriesOk τ w'.entries
  seqok : SeqOk w'.entries o'
  dim : o'.dimension = o.dimension
  arr : o'.isArray = o.isArray

section Step

variable {τ : Arith} {w w' w'' : World} {s : ℕ} {o o' o'' : SeqObj}

theorem Step.seqs (h : Step τ w w' s o o') : w'.seqs = w.seqs.set s o' := by rw [h.eq]
theorem Step.betas (h : Step τ w w' s o o') : w'.betas = w.betas := by rw [h.eq]
theorem Step.rng (h : Step τ w w' s o o') : w'.rng = w.rng := by rw [h.eq]

theorem Step.get (h : Step τ w w' s o o') (hs : w.seqs[s]? = some o) : w'.seqs[s]? = some o' := by
  rw [h.seqs, List.getElem?_set_self (List.getElem?_eq_some_iff.mp hs).1]

theorem Step.get_ne (h : Step τ w w' s o o') {t : ℕ} (ht : t ≠ s) : w'.seqs[t]? = w.seqs[t]? := by
  rw [h.seqs, List.getElem?_set_ne ht.symm]

theorem Step.trans (h : Step τ w w' s o o') (h' : Step τ w' w'' s o' o'') : Step τ w w'' s o o'' where
  eq := by
    have e1 : w''.seqs = w.seqs.set s o'' := by rw [h'.seqs, h.seqs, List.set_set]
    have e2 : w''.betas = w.betas := by rw [h'.betas, h.betas]
    have e3 : w''.rng = w.rng := by rw [h'.rng, h.rng]
    cases w''; simp_all
  grow := h.grow.trans h'.grow
  nonew := h.nonew.trans h'.nonew
  ok := h'.ok
  seqok := h'.seqok
  dim := h'.dim.trans h.dim
  arr := h'.arr.trans h.arr

theorem set_getElem?_self {α : Type} {l : List α} {i : ℕ} {a : α} (h : l[i]? = some a) : l.set i a = l := by
  obtain ⟨h1, h2⟩ := List.getElem?_eq_some_iff.mp h
  rw [← h2, List.set_getElem_self]

theorem Step.refl (hw : w.WF τ) (hs : w.seqs[s]? = some o) : Step τ w w s o o where
  eq := by rw [set_getElem?_self hs]
  grow := .refl _
  nonew := .refl _
  ok := hw.entries
  seqok := hw.seq hs
  dim := rfl
  arr := rfl

/-- Only the sequence object changes. -/
theorem Step.setSeq (hw : EntriesOk τ w.entries) (hok : SeqOk w.entries o') (hd : o'.dimension = o.dimension)
    (ha : o'.isArray = o.isArray) : Step τ w { w with seqs := w.seqs.set s o' } s o o' where
  eq := rfl
  grow := .refl _
  nonew := .refl _
  ok := hw
  seqok := hok
  dim := hd
  arr := ha

theorem Step.wf (h : Step τ w w' s o o') (hw : w.WF τ) : w'.WF τ where
  entries := h.ok
  seqs := by
    intro x hx
    rw [h.seqs] at hx
    rcases List.mem_or_eq_of_mem_set hx with hx | rfl
    · exact (hw.seqs x hx).grow h.grow
    · exact h.seqok

theorem Step.exact (h : Step τ w w' s o o') (he : ExactEs w.entries) : ExactEs w'.entries :=
  h.nonew.forall he

end Step

/-! ## Numerical facts -/

theorem FitsDim.fits {e : EntryVal} {n : ℕ} (h : FitsDim e (2 ^ n)) : e.Fits n := EntryVal.fits_of_max_le h.2

theorem EntryVal.WF.fitsDim {e : EntryVal} {n : ℕ} (h : e.WF) (hf : e.Fits n) : FitsDim e (2 ^ n) :=
  ⟨h.dim_le hf, h.max_le hf⟩

theorem fullUnitary_op {e : EntryVal} {n : ℕ} (h : e.WF) (hf : e.Fits n) (he : e.Exact) :
    ∃ f, e.fullUnitary 0 (2 ^ n) = .ok f ∧ f.Exact (2 ^ n) ∧ f.matrix.toMatrix (2 ^ n) = e.op n :=
  EntryVal.fullUnitary_exact h hf he

theorem plain_exact {d : ℕ} {a : Arr} (hd : 0 < d) (hr : a.rows = d) (hc : a.cols = d)
    (h : a.toMatrix d ∈ specialUnitaryGroup (Fin d) ℂ) : (Unitary.plain a).Exact d := ⟨hd, hr, hc, h⟩

theorem leftMultiply_exact {d : ℕ} {u v : Unitary} (hu : u.Exact d) (hv : v.Exact d) :
    ∃ r, u.leftMultiply 0 v = .ok r ∧ r.Exact d ∧
      r.matrix.toMatrix d = v.matrix.toMatrix d * u.matrix.toMatrix d := by
  have hm : (v.matrix.matmul u.matrix).toMatrix d = v.matrix.toMatrix d * u.matrix.toMatrix d :=
    Arr.toMatrix_matmul hv.cols
  exact ⟨_, Unitary.leftMultiply_eq hu hv,
    plain_exact hu.pos hv.rows hu.cols (hm ▸ mul_mem hv.2.2.2 hu.2.2.2), hm⟩

theorem rightMultiply_exact {d : ℕ} {u v : Unitary} (hu : u.Exact d) (hv : v.Exact d) :
    ∃ r, u.rightMultiply 0 v = .ok r ∧ r.Exact d ∧
      r.matrix.toMatrix d = u.matrix.toMatrix d * v.matrix.toMatrix d := by
  have hm : (u.matrix.matmul v.matrix).toMatrix d = u.matrix.toMatrix d * v.matrix.toMatrix d :=
    Arr.toMatrix_matmul hu.cols
  exact ⟨_, Unitary.rightMultiply_eq hu hv,
    plain_exact hu.pos hu.rows hv.cols (hm ▸ mul_mem hu.2.2.2 hv.2.2.2), hm⟩

theorem inverse_exact {d : ℕ} {u : Unitary} (hu : u.Exact d) :
    ∃ r, u.inverse 0 = .ok r ∧ r.Exact d ∧ r.matrix.toMatrix d = (u.matrix.toMatrix d)ᴴ := by
  have hm : (u.matrix.ct).toMatrix d = (u.matrix.toMatrix d)ᴴ := Arr.toMatrix_ct
  exact ⟨_, Unitary.inverse_eq hu, ⟨hu.pos, hu.cols, hu.rows, hm ▸ Unitary.ct_mem_su hu.2.2.2⟩, hm⟩

theorem rewrap_exact {d : ℕ} {u : Unitary} (hu : u.Exact d) :
    Unitary.new 0 u.getDimension (some u.getMatrix) = .ok (Unitary.plain u.matrix) := by
  rw [hu.dim]
  exact Unitary.new_su hu.pos hu.rows hu.cols hu.2.2.2 none none false []

/-! ## Hypotheses of the exact case -/

/-- Exact arithmetic on an `n`-qubit sequence with correct stored products. -/
structure Exact0 (τ : Arith) (n : ℕ) (w : World) (o : SeqObj) : Prop where
  tau : τ = 0
  dim : o.dimension = 2 ^ n
  es : ExactEs w.entries
  prod : ProdOk w.entries n o

/-! ## `_save_undo_state` -/

theorem saveUndo_wp {τ : Arith} {w : World} {s : ℕ} {o : SeqObj} (hw : w.WF τ) (hs : w.seqs[s]? = some o) :
    Wp (Seq.saveUndoState τ s) (fun res w' => ∃ o' ps, Step τ w w' s o o' ∧
      o'.entries = o.entries ∧ o'.product = o.product ∧ o'.previousEntries = some ps ∧
      valsOf w'.entries ps = valsOf w.entries o.entries ∧
      (o.product = none → res = .ok ()) ∧
      (∀ n, Exact0 τ n w o → res = .ok () ∧ ProdOk w'.entries n o')) w := by
  have hso := hw.seq hs
  unfold Seq.saveUndoState
  refine Wp.getSeq_bind hs (Wp.bind ?_)
  refine (deepcopy_wp hso.entries.lt).mono ?_
  rintro res w1 ⟨f, l, rfl, rfl, hl, hinj, hf⟩
  simp only
  refine Wp.setSeq_bind ?_
  have hgrow : Grow w.entries (w.entries ++ l) := .append _ _
  have hnn : NoNew w.entries (w.entries ++ l) := .append fun x hx => ⟨x, hl x hx, rfl⟩
  have hok : EntriesOk τ (w.entries ++ l) := hw.entries.append fun x hx => hw.entries x (hl x hx)
  have hvals : valsOf (w.entries ++ l) (o.entries.map f) = valsOf w.entries o.entries :=
    valsOf_map fun r hr => by rw [(hf r hr).2]
  have hrefs : RefsOk (w.entries ++ l) o.dimension (o.entries.map f) := by
    intro r' hr'
    obtain ⟨r, hr, rfl⟩ := List.mem_map.mp hr'
    obtain ⟨x, hx, hfx⟩ := hso.entries r hr
    exact ⟨x, by rw [(hf r hr).2, hx], hfx⟩
  have mk : ∀ pp, SeqOk (w.entries ++ l)
      { o with previousEntries := some (o.entries.map f), previousProduct := pp } := fun pp =>
    ⟨hso.entries.grow hgrow, fun ps hps => by cases hps; exact hrefs⟩
  rcases hp : o.product with _ | p
  · simp only
    refine Wp.pure ⟨{ o with previousEntries := some (o.entries.map f) }, _,
      ⟨by rw [hp], hgrow, hnn, hok, mk _, rfl, rfl⟩, rfl, hp, rfl, hvals, fun _ => rfl, fun n hx => ⟨rfl, ?_⟩⟩
    refine ⟨fun q hq => ?_, fun q hq => ?_, hx.prod.none⟩
    · simp only at hq; rw [hp] at hq; cases hq
    · simp only at hq; rw [hx.prod.none hp] at hq; cases hq
  · simp only
    refine Wp.lift_bind (fun p' hp' => ?_) fun e he => ?_
    · refine Wp.setSeq ⟨{ o with previousEntries := some (o.entries.map f), previousProduct := some p' }, _,
        ⟨?_, hgrow, hnn, hok, mk _, rfl, rfl⟩, rfl, hp, rfl, hvals, fun h => (by cases h),
        fun n hx => ⟨rfl, ?_⟩⟩
      · simp [List.set_set, hp]
      · obtain ⟨h1, h2⟩ := hx.prod.prod p hp
        have hτ := hx.tau; subst hτ
        rw [rewrap_exact h1] at hp'
        cases hp'
        refine ⟨fun q hq => ?_, fun q hq => ?_, fun h => ?_⟩
        · simp only at hq ⊢; rw [hp] at hq; cases hq
          exact ⟨h1, by rw [h2, hso.entries.vals_grow hgrow]⟩
        · cases hq
          exact ⟨_, rfl, h1, h2.trans (congrArg (circuit n) hvals.symm)⟩
        · simp only at h; rw [hp] at h; cases h
    · refine ⟨{ o with previousEntries := some (o.entries.map f) }, _,
        ⟨by rw [hp], hgrow, hnn, hok, mk _, rfl, rfl⟩, rfl, hp, rfl, hvals, fun h => (by cases h), fun n hx => ?_⟩
      obtain ⟨h1, h2⟩ := hx.prod.prod p hp
      have hτ := hx.tau; subst hτ
      rw [rewrap_exact h1] at he; cases he

theorem assertIsEntryValid_eq {w : World} {e : ℕ} {x : EntryObj} (he : w.entries[e]? = some x) (D : ℕ) :
    Seq.assertIsEntryValid D e w =
      (open Classical in if FitsDim x.toVal D then (.ok (), w) else (.error .assertion, w)) := by
  unfold Seq.assertIsEntryValid
  rw [PyM.bind_of_ok (getEntry_some he)]
  by_cases h1 : x.toVal.getDimension ≤ D
  · rw [PyM.bind_of_ok (PyM.assert_of h1 w)]
    by_cases h2 : 2 ^ (listMax x.toVal.applyTo + 1) ≤ D
    · rw [PyM.assert_of h2, if_pos ⟨h1, h2⟩]
    · rw [PyM.assert_of_not h2, if_neg fun h => h2 h.2]
  · rw [PyM.bind_of_error (PyM.assert_of_not h1 w), if_neg fun h => h1 h.1]

theorem Wp.assertIsEntryValid_bind {β : Type} {w : World} {e : ℕ} {x : EntryObj}
    (he : w.entries[e]? = some x) {D : ℕ} {f : Unit → PyM World β} {Q : Except PyErr β → World → Prop}
    (hok : FitsDim x.toVal D → Wp (f ()) Q w) (herr : ¬ FitsDim x.toVal D → Q (.error .assertion) w) :
    Wp (Seq.assertIsEntryValid D e >>= f) Q w := by
  by_cases h : FitsDim x.toVal D
  · exact Wp.bind_ok (by rw [assertIsEntryValid_eq he, if_pos h]) (hok h)
  · exact Wp.bind_error (by rw [assertIsEntryValid_eq he, if_neg h]) (herr h)

/-! ## Replacing the list of entries and updating the product -/

/-- The common end of the four mutators: store the new list `upd`, then, if a product is stored, update it with
the full unitary of entry `e`. -/
noncomputable def updTail (τ : Arith) (s e : ℕ) (upd : List ℕ) (mul : Unitary → Unitary → Except PyErr Unitary)
    (o : SeqObj) : PyM World Unit := do
  setSeq s { o with entries := upd }
  match o.product with
  | none => pure ()
  | some p => do
    let u ← Entry.getFullUnitary τ e o.dimension
    let p' ← PyM.lift (mul p u)
    setSeq s { o with entries := upd, product := some p' }

/-- Outcome of `updTail`. -/
structure UpdPost (τ : Arith) (w : World) (s : ℕ) (o : SeqObj) (upd : List ℕ)
    (res : Except PyErr Unit) (w' : World) (o' : SeqObj) : Prop where
  step : Step τ w w' s o o'
  undo : o'.previousEntries = o.previousEntries
  entries : o'.entries = upd
  noprod : o.product = none → res = .ok () ∧ o'.product = none
  stuck : res ≠ .ok () → o'.product = o.product
  exact : ∀ n, Exact0 τ n w o → res = .ok () ∧ ProdOk w'.entries n o'
  pow : res = .ok () → o.product ≠ none → ∃ k, o.dimension = 2 ^ k

theorem updTail_wp {τ : Arith} {w : World} {s e : ℕ} {o : SeqObj} {x : EntryObj} {upd : List ℕ}
    {mul : Unitary → Unitary → Except PyErr Unitary} (hw : w.WF τ)
    (hs : w.seqs[s]? = some o) (he : w.entries[e]? = some x) (hfit : FitsDim x.toVal o.dimension)
    (hupd : RefsOk w.entries o.dimension upd)
    (hmul : ∀ n, Exact0 τ n w o → ∀ p f : Unitary, p.Exact (2 ^ n) → f.Exact (2 ^ n) →
      p.matrix.toMatrix (2 ^ n) = circuit n (valsOf w.entries o.entries) →
      f.matrix.toMatrix (2 ^ n) = x.toVal.op n →
      ∃ p', mul p f = .ok p' ∧ p'.Exact (2 ^ n) ∧
        p'.matrix.toMatrix (2 ^ n) = circuit n (valsOf w.entries upd)) :
    Wp (updTail τ s e upd mul o) (fun res w' => ∃ o', UpdPost τ w s o upd res w' o') w := by
  have hso := hw.seq hs
  unfold updTail
  refine Wp.setSeq_bind ?_
  have hok1 : SeqOk w.entries { o with entries := upd } := ⟨hupd, hso.prev⟩
  set w1 : World := { w with seqs := w.seqs.set s { o with entries := upd } } with hw1
  have st1 : Step τ w w1 s o { o with entries := upd } := .setSeq hw.entries hok1 rfl rfl
  rcases hp : o.product with _ | p
  · simp only
    refine Wp.pure ⟨_, st1, rfl, rfl, fun _ => ⟨rfl, hp⟩, fun _ => rfl, fun n hx => ⟨rfl, ?_⟩,
      fun _ h => absurd hp h⟩
    refine ⟨fun q hq => ?_, fun q hq => ?_, hx.prod.none⟩
    · simp only at hq; rw [hp] at hq; cases hq
    · simp only at hq; rw [hx.prod.none hp] at hq; cases hq
  · simp only
    refine Wp.bind ?_
    refine (getFullUnitary_wp (w := w1) hw.entries he o.dimension).mono ?_
    rintro res w2 ⟨hres, x', rfl, hx'v, hx'ok⟩
    have st2 : Step τ w1 { w1 with entries := w1.entries.set e x' } s { o with entries := upd }
        { o with entries := upd } :=
      { eq := by
          show _ = ({ w1 with entries := _, seqs := (w.seqs.set s _).set s _ } : World)
          rw [List.set_set]
        grow := Grow.set he hx'v
        nonew := NoNew.set he hx'v
        ok := hw.entries.set hx'ok
        seqok := hok1.grow (Grow.set he hx'v)
        dim := rfl
        arr := rfl }
    have st := st1.trans st2
    have full : ∀ n, Exact0 τ n w o → ∃ f, res = .ok f ∧ f.Exact (2 ^ n) ∧
        f.matrix.toMatrix (2 ^ n) = x.toVal.op n := by
      intro n hx
      have hτ := hx.tau; subst hτ
      rw [hx.dim] at hres hfit
      obtain ⟨f, hf, h2⟩ := fullUnitary_op (hw.entries x (List.mem_of_getElem? he)).wf hfit.fits
        (hx.es x (List.mem_of_getElem? he))
      exact ⟨f, hres.trans hf, h2⟩
    rcases res with err | f
    · simp only
      refine ⟨_, st, rfl, rfl, fun h => (by rw [hp] at h; cases h), fun _ => rfl, fun n hx => ?_,
        fun h => (by cases h)⟩
      obtain ⟨f, hf, -⟩ := full n hx
      cases hf
    · simp only
      refine Wp.lift_bind (fun p' hp' => ?_) fun err herr => ?_
      · have hfin : SeqOk (w.entries.set e x') { o with entries := upd, product := some p' } :=
          ⟨hupd.grow (Grow.set he hx'v), fun ps hps => (hso.prev ps hps).grow (Grow.set he hx'v)⟩
        refine Wp.setSeq ⟨{ o with entries := upd, product := some p' },
          st.trans (.setSeq (hw.entries.set hx'ok) hfin rfl rfl), rfl, rfl,
          fun h => (by rw [hp] at h; cases h), fun h => absurd rfl h, fun n hx => ⟨rfl, ?_⟩,
          fun _ _ => EntryVal.fullUnitary_pow hres.symm⟩
        obtain ⟨f', hf, hfe, hfm⟩ := full n hx
        cases hf
        obtain ⟨h1, h2⟩ := hx.prod.prod p hp
        obtain ⟨p'', hp'', h3, h4⟩ := hmul n hx p f h1 hfe h2 hfm
        rw [hp''] at hp'; cases hp'
        refine ⟨fun q hq => ?_, fun q hq => ?_, fun h => (by cases h)⟩
        · cases hq
          refine ⟨h3, ?_⟩
          show _ = circuit n (valsOf (w.entries.set e x') upd)
          rw [hupd.vals_grow (Grow.set he hx'v), h4]
        · obtain ⟨ps, h5, h6, h7⟩ := hx.prod.prev q hq
          refine ⟨ps, h5, h6, ?_⟩
          show _ = circuit n (valsOf (w.entries.set e x') ps)
          rw [(hso.prev ps h5).vals_grow (Grow.set he hx'v)]; exact h7
      · refine ⟨_, st, rfl, rfl, fun h => (by rw [hp] at h; cases h), fun _ => rfl, fun n hx => ?_,
          fun h => (by cases h)⟩
        obtain ⟨f', hf, hfe, hfm⟩ := full n hx
        cases hf
        obtain ⟨h1, h2⟩ := hx.prod.prod p hp
        obtain ⟨p'', hp'', -⟩ := hmul n hx p f h1 hfe h2 hfm
        rw [hp''] at herr; cases herr

/-! ## Saving, the list check, and the update -/

/-- Outcome of a mutator on a list-backed sequence, `upd` being the new list of entries. -/
structure MutPost (τ : Arith) (w : World) (s : ℕ) (o : SeqObj) (b : Bool) (upd : List ℕ)
    (res : Except PyErr Unit) (w' : World) (o' : SeqObj) : Prop where
  step : Step τ w w' s o o'
  ok : res = .ok () → o'.entries = upd
  undo : o'.previousEntries.map (valsOf w'.entries) =
    if b then some (valsOf w.entries o.entries) else o.previousEntries.map (valsOf w.entries)
  noprod : o.product = none → res = .ok () ∧ o'.product = none
  stuck : res ≠ .ok () → o'.product = o.product
  exact : ∀ n, Exact0 τ n w o → res = .ok () ∧ ProdOk w'.entries n o'
  entries : b = false → o'.entries = upd
  pow : res = .ok () → o.product ≠ none → ∃ k, o.dimension = 2 ^ k

/-- Outcome of a mutator on an array-backed sequence. -/
structure ArrPost (τ : Arith) (w : World) (s : ℕ) (o : SeqObj) (b : Bool)
    (res : Except PyErr Unit) (w' : World) (o' : SeqObj) : Prop where
  step : Step τ w w' s o o'
  fail : res ≠ .ok ()
  entries : o'.entries = o.entries
  product : o'.product = o.product
  undo : o'.previousEntries.map (valsOf w'.entries) =
    if b then some (valsOf w.entries o.entries) else o.previousEntries.map (valsOf w.entries)
  noprod : b = false ∨ o.product = none → res = .error .attributeError
  exact : ∀ n, Exact0 τ n w o → res = .error .attributeError ∧ ProdOk w'.entries n o'

def ModPost (τ : Arith) (w : World) (s : ℕ) (o : SeqObj) (b : Bool) (upd : List ℕ)
    (res : Except PyErr Unit) (w' : World) (o' : SeqObj) : Prop :=
  (o.isArray = false → MutPost τ w s o b upd res w' o') ∧ (o.isArray = true → ArrPost τ w s o b res w' o')

theorem prevVals_grow {es es' : List EntryObj} {o : SeqObj} (h : SeqOk es o) (hg : Grow es es') :
    o.previousEntries.map (valsOf es') = o.previousEntries.map (valsOf es) := by
  rcases hp : o.previousEntries with _ | ps
  · rfl
  · simp [(h.prev ps hp).vals_grow hg]

theorem guard_false_wp {τ : Arith} {w : World} {s : ℕ} {o : SeqObj} {upd : List ℕ}
    {k : SeqObj → PyM World Unit} (hw : w.WF τ) (hs : w.seqs[s]? = some o)
    (hk : o.isArray = false → Wp (k o) (fun res w' => ∃ o', UpdPost τ w s o upd res w' o') w) :
    Wp (getSeq s >>= fun o => Seq.requireList o >>= fun _ => k o)
      (fun res w' => ∃ o', ModPost τ w s o false upd res w' o') w := by
  refine Wp.getSeq_bind hs ?_
  unfold Seq.requireList
  refine Wp.lift_bind (fun _ ha => ?_) fun err ha => ?_
  · have harr := raiseUnless_eq_ok.mp ha
    refine (hk harr).mono ?_
    rintro res w' ⟨o', h⟩
    refine ⟨o', fun _ => ⟨h.step, fun _ => h.entries, ?_, h.noprod, h.stuck, h.exact,
      fun _ => h.entries, h.pow⟩, fun h => (by rw [harr] at h; cases h)⟩
    rw [h.undo, prevVals_grow (hw.seq hs) h.step.grow]; rfl
  · have harr : o.isArray = true := by
      by_contra h
      rw [raiseUnless_of (by simpa using h)] at ha; cases ha
    have herr : err = .attributeError := by
      rw [raiseUnless_of_not (by simp [harr])] at ha; cases ha; rfl
    subst herr
    exact ⟨o, fun h => (by rw [harr] at h; cases h), fun _ => ⟨.refl hw hs, fun h => (by cases h), rfl, rfl, rfl,
      fun _ => rfl, fun n hx => ⟨rfl, hx.prod⟩⟩⟩

theorem guard_true_wp {τ : Arith} {w : World} {s : ℕ} {o : SeqObj} {upd : List ℕ}
    {k : SeqObj → PyM World Unit} (hw : w.WF τ) (hs : w.seqs[s]? = some o)
    (hk : o.isArray = false → ∀ w1 o1, Step τ w w1 s o o1 → o1.entries = o.entries →
      Wp (k o1) (fun res w' => ∃ o', UpdPost τ w1 s o1 upd res w' o') w1) :
    Wp (Seq.saveUndoState τ s >>= fun _ => getSeq s >>= fun o => Seq.requireList o >>= fun _ => k o)
      (fun res w' => ∃ o', ModPost τ w s o true upd res w' o') w := by
  refine Wp.bind ((saveUndo_wp hw hs).mono ?_)
  rintro res w1 ⟨o1, ps, st, he, hp, hps, hv, hnone, hexact⟩
  rcases res with err | u
  · simp only
    refine ⟨o1, fun _ => ⟨st, fun h => (by cases h), ?_, fun h => absurd (hnone h) (by simp), fun _ => hp,
      fun n hx => absurd (hexact n hx).1 (by simp), fun h => (by cases h), fun h => (by cases h)⟩,
      fun _ => ⟨st, fun h => (by cases h), he, hp, ?_,
      fun h => ?_, fun n hx => absurd (hexact n hx).1 (by simp)⟩⟩
    · rw [hps]; simp [hv]
    · rw [hps]; simp [hv]
    · rcases h with h | h
      · cases h
      · exact absurd (hnone h) (by simp)
  · simp only
    have hw1 := st.wf hw
    have hs1 := st.get hs
    refine (guard_false_wp hw1 hs1 (upd := upd) fun ha => hk (st.arr ▸ ha) w1 o1 st he).mono ?_
    rintro res w2 ⟨o2, h1, h2⟩
    have hund : o1.previousEntries.map (valsOf w1.entries) = some (valsOf w.entries o.entries) := by
      rw [hps]; simp [hv]
    have hex : ∀ n, Exact0 τ n w o → Exact0 τ n w1 o1 := fun n hx =>
      ⟨hx.tau, st.dim.trans hx.dim, st.exact hx.es, (hexact n hx).2⟩
    refine ⟨o2, fun ha => ?_, fun ha => ?_⟩
    · have h := h1 (st.arr.trans ha)
      refine ⟨st.trans h.step, h.ok, ?_, fun hn => h.noprod (hp.trans hn), fun hr => (h.stuck hr).trans hp,
        fun n hx => h.exact n (hex n hx), fun h => (by cases h), fun hr hn => ?_⟩
      · rw [h.undo]; simpa using hund
      · rw [← st.dim]; exact h.pow hr (by rw [hp]; exact hn)
    · have h := h2 (st.arr.trans ha)
      refine ⟨st.trans h.step, h.fail, h.entries.trans he, h.product.trans hp, ?_, fun _ => h.noprod (.inl rfl),
        fun n hx => h.exact n (hex n hx)⟩
      rw [h.undo]; simpa using hund

/-! ## The four mutators -/

/-- Outcome of an append. -/
structure AppendPost (τ : Arith) (w : World) (s : ℕ) (o : SeqObj) (x : EntryObj) (b : Bool) (upd : List ℕ)
    (res : Except PyErr Unit) (w' : World) (o' : SeqObj) : Prop where
  reject : ¬ FitsDim x.toVal o.dimension → res = .error .assertion ∧ w' = w ∧ o' = o
  accept : FitsDim x.toVal o.dimension → ModPost τ w s o b upd res w' o'

theorem appendLast_wp {τ : Arith} {w : World} {s e : ℕ} {o : SeqObj} {x : EntryObj} (hw : w.WF τ)
    (hs : w.seqs[s]? = some o) (he : w.entries[e]? = some x) (b : Bool) :
    Wp (Seq.appendLast τ s e b)
      (fun res w' => ∃ o', AppendPost τ w s o x b (o.entries ++ [e]) res w' o') w := by
  have tail : FitsDim x.toVal o.dimension → ∀ w1 o1, Step τ w w1 s o o1 → o1.entries = o.entries →
      Wp (updTail τ s e (o1.entries ++ [e]) (fun p u => p.leftMultiply τ u) o1)
        (fun res w' => ∃ o', UpdPost τ w1 s o1 (o.entries ++ [e]) res w' o') w1 := by
    intro hfit w1 o1 st hent
    obtain ⟨x1, hx1, hx1v⟩ := st.grow e x he
    have hw1 := st.wf hw
    have hs1 := st.get hs
    rw [← hent]
    have hfit1 : FitsDim x1.toVal o1.dimension := by rw [hx1v, st.dim]; exact hfit
    refine updTail_wp hw1 hs1 hx1 hfit1 ?_ ?_
    · intro r hr
      rcases List.mem_append.mp hr with hr | hr
      · exact (hw1.seq hs1).entries r hr
      · rw [List.mem_singleton] at hr; subst hr; exact ⟨x1, hx1, hfit1⟩
    · intro n hx p f hp hf hpm hfm
      have hτ := hx.tau; subst hτ
      obtain ⟨p', h1, h2, h3⟩ := leftMultiply_exact hp hf
      refine ⟨p', h1, h2, ?_⟩
      rw [valsOf_append, valsOf_cons hx1, valsOf_nil, circuit_append, circuit_singleton, h3, hpm, hfm]
  unfold Seq.appendLast
  refine Wp.getSeq_bind hs (Wp.assertIsEntryValid_bind he (fun hfit => ?_) fun hfit => ?_)
  · have lift : ∀ res w', (∃ o', ModPost τ w s o b (o.entries ++ [e]) res w' o') →
        ∃ o', AppendPost τ w s o x b (o.entries ++ [e]) res w' o' :=
      fun _ _ ⟨o', h⟩ => ⟨o', fun h' => absurd hfit h', fun _ => h⟩
    cases b
    · exact (guard_false_wp (k := fun o1 => updTail τ s e (o1.entries ++ [e]) (fun p u => p.leftMultiply τ u) o1)
        hw hs fun _ => tail hfit w o (.refl hw hs) rfl).mono lift
    · exact (guard_true_wp hw hs fun _ => tail hfit).mono lift
  · exact ⟨o, fun _ => ⟨rfl, rfl, rfl⟩, fun h => absurd h hfit⟩

theorem appendFirst_wp {τ : Arith} {w : World} {s e : ℕ} {o : SeqObj} {x : EntryObj} (hw : w.WF τ)
    (hs : w.seqs[s]? = some o) (he : w.entries[e]? = some x) (b : Bool) :
    Wp (Seq.appendFirst τ s e b)
      (fun res w' => ∃ o', AppendPost τ w s o x b (e :: o.entries) res w' o') w := by
  have tail : FitsDim x.toVal o.dimension → ∀ w1 o1, Step τ w w1 s o o1 → o1.entries = o.entries →
      Wp (updTail τ s e (e :: o1.entries) (fun p u => p.rightMultiply τ u) o1)
        (fun res w' => ∃ o', UpdPost τ w1 s o1 (e :: o.entries) res w' o') w1 := by
    intro hfit w1 o1 st hent
    obtain ⟨x1, hx1, hx1v⟩ := st.grow e x he
    have hw1 := st.wf hw
    have hs1 := st.get hs
    rw [← hent]
    have hfit1 : FitsDim x1.toVal o1.dimension := by rw [hx1v, st.dim]; exact hfit
    refine updTail_wp hw1 hs1 hx1 hfit1 ?_ ?_
    · intro r hr
      rcases List.mem_cons.mp hr with rfl | hr
      · exact ⟨x1, hx1, hfit1⟩
      · exact (hw1.seq hs1).entries r hr
    · intro n hx p f hp hf hpm hfm
      have hτ := hx.tau; subst hτ
      obtain ⟨p', h1, h2, h3⟩ := rightMultiply_exact hp hf
      refine ⟨p', h1, h2, ?_⟩
      rw [valsOf_cons hx1, h3, hpm, hfm]; rfl
  unfold Seq.appendFirst
  refine Wp.getSeq_bind hs (Wp.assertIsEntryValid_bind he (fun hfit => ?_) fun hfit => ?_)
  · have lift : ∀ res w', (∃ o', ModPost τ w s o b (e :: o.entries) res w' o') →
        ∃ o', AppendPost τ w s o x b (e :: o.entries) res w' o' :=
      fun _ _ ⟨o', h⟩ => ⟨o', fun h' => absurd hfit h', fun _ => h⟩
    cases b
    · exact (guard_false_wp (k := fun o1 => updTail τ s e (e :: o1.entries) (fun p u => p.rightMultiply τ u) o1)
        hw hs fun _ => tail hfit w o (.refl hw hs) rfl).mono lift
    · exact (guard_true_wp hw hs fun _ => tail hfit).mono lift
  · exact ⟨o, fun _ => ⟨rfl, rfl, rfl⟩, fun h => absurd h hfit⟩

/-- Outcome of a removal. -/
structure RemovePost (τ : Arith) (w : World) (s : ℕ) (o : SeqObj) (b : Bool) (upd : List ℕ)
    (res : Except PyErr Unit) (w' : World) (o' : SeqObj) : Prop where
  empty : o.entries = [] → res = .ok () ∧ w' = w ∧ o' = o
  some : o.entries ≠ [] → ModPost τ w s o b upd res w' o'

theorem liftBind_eq {σ α β γ : Type} (x : Except PyErr α) (f : α → Except PyErr β) (g : β → PyM σ γ) :
    (PyM.lift x >>= fun a => PyM.lift (f a) >>= g) = (PyM.lift (x >>= f) >>= g : PyM σ γ) := by
  rcases x with _ | a <;> rfl

theorem removeFirst_wp {τ : Arith} {w : World} {s : ℕ} {o : SeqObj} (hw : w.WF τ)
    (hs : w.seqs[s]? = some o) (b : Bool) :
    Wp (Seq.removeFirst τ s b) (fun res w' => ∃ o', RemovePost τ w s o b o.entries.tail res w' o') w := by
  have tail : o.entries ≠ [] → ∀ w1 o1, Step τ w w1 s o o1 → o1.entries = o.entries →
      Wp (match o1.entries with
        | [] => PyM.raise .indexError
        | removed :: rest => updTail τ s removed rest
            (fun p u => u.inverse τ >>= fun i => p.rightMultiply τ i) o1)
        (fun res w' => ∃ o', UpdPost τ w1 s o1 o.entries.tail res w' o') w1 := by
    intro hne w1 o1 st hent
    have hw1 := st.wf hw
    have hs1 := st.get hs
    rw [← hent] at hne ⊢
    rcases hl : o1.entries with _ | ⟨r, rest⟩
    · exact absurd hl hne
    · simp only [List.tail_cons]
      have hrefs := (hw1.seq hs1).entries
      rw [hl] at hrefs
      obtain ⟨x, hx, hfit⟩ := hrefs r (by simp)
      refine updTail_wp hw1 hs1 hx hfit (fun r' hr' => hrefs r' (by simp [hr'])) ?_
      intro n h0 p f hp hf hpm hfm
      have hτ := h0.tau; subst hτ
      obtain ⟨i, hi, hie, him⟩ := inverse_exact hf
      obtain ⟨p', h1, h2, h3⟩ := rightMultiply_exact hp hie
      refine ⟨p', by rw [hi]; exact h1, h2, ?_⟩
      have hxm := List.mem_of_getElem? hx
      rw [h3, hpm, him, hfm, hl, valsOf_cons hx, circuit, Matrix.mul_assoc,
        op_mul_ct (hw1.entries x hxm).wf (h0.dim ▸ hfit).fits (h0.es x hxm), Matrix.mul_one]
  unfold Seq.removeFirst Seq.getLength
  refine Wp.bind (Wp.getSeq_bind hs (Wp.pure ?_))
  simp only [liftBind_eq]
  by_cases hlen : o.entries.length > 0
  · have hne : o.entries ≠ [] := List.ne_nil_of_length_pos hlen
    have lift : ∀ res w', (∃ o', ModPost τ w s o b o.entries.tail res w' o') →
        ∃ o', RemovePost τ w s o b o.entries.tail res w' o' :=
      fun _ _ ⟨o', h⟩ => ⟨o', fun h' => absurd h' hne, fun _ => h⟩
    rw [if_pos hlen]
    cases b
    · exact (guard_false_wp hw hs fun _ => tail hne w o (.refl hw hs) rfl).mono lift
    · exact (guard_true_wp hw hs fun _ => tail hne).mono lift
  · have hnil : o.entries = [] := List.eq_nil_of_length_eq_zero (by omega)
    rw [if_neg hlen]
    exact ⟨o, fun _ => ⟨rfl, rfl, rfl⟩, fun h => absurd hnil h⟩

theorem removeLast_wp {τ : Arith} {w : World} {s : ℕ} {o : SeqObj} (hw : w.WF τ)
    (hs : w.seqs[s]? = some o) (b : Bool) :
    Wp (Seq.removeLast τ s b) (fun res w' => ∃ o', RemovePost τ w s o b o.entries.dropLast res w' o') w := by
  have tail : o.entries ≠ [] → ∀ w1 o1, Step τ w w1 s o o1 → o1.entries = o.entries →
      Wp (match o1.entries.getLast? with
        | none => PyM.raise .indexError
        | some removed => updTail τ s removed o1.entries.dropLast
            (fun p u => u.inverse τ >>= fun i => p.leftMultiply τ i) o1)
        (fun res w' => ∃ o', UpdPost τ w1 s o1 o.entries.dropLast res w' o') w1 := by
    intro hne w1 o1 st hent
    have hw1 := st.wf hw
    have hs1 := st.get hs
    rw [← hent] at hne ⊢
    rcases hl : o1.entries.getLast? with _ | r
    · exact absurd (List.getLast?_eq_none_iff.mp hl) hne
    · simp only
      have happ : o1.entries = o1.entries.dropLast ++ [r] := by
        rw [List.dropLast_append_getLast? r (by rw [hl]; rfl)]
      have hrefs := (hw1.seq hs1).entries
      obtain ⟨x, hx, hfit⟩ := hrefs r (by rw [happ]; simp)
      refine updTail_wp hw1 hs1 hx hfit (fun r' hr' => hrefs r' (List.mem_of_mem_dropLast hr')) ?_
      intro n h0 p f hp hf hpm hfm
      have hτ := h0.tau; subst hτ
      obtain ⟨i, hi, hie, him⟩ := inverse_exact hf
      obtain ⟨p', h1, h2, h3⟩ := leftMultiply_exact hp hie
      refine ⟨p', by rw [hi]; exact h1, h2, ?_⟩
      have hxm := List.mem_of_getElem? hx
      rw [h3, hpm, him, hfm]
      conv_lhs => rw [happ]
      rw [valsOf_append, valsOf_cons hx, valsOf_nil, circuit_append, circuit_singleton, ← Matrix.mul_assoc,
        op_ct_mul (hw1.entries x hxm).wf (h0.dim ▸ hfit).fits (h0.es x hxm), Matrix.one_mul]
  unfold Seq.removeLast Seq.getLength
  refine Wp.bind (Wp.getSeq_bind hs (Wp.pure ?_))
  simp only [liftBind_eq]
  by_cases hlen : o.entries.length > 0
  · have hne : o.entries ≠ [] := List.ne_nil_of_length_pos hlen
    have lift : ∀ res w', (∃ o', ModPost τ w s o b o.entries.dropLast res w' o') →
        ∃ o', RemovePost τ w s o b o.entries.dropLast res w' o' :=
      fun _ _ ⟨o', h⟩ => ⟨o', fun h' => absurd h' hne, fun _ => h⟩
    rw [if_pos hlen]
    cases b
    · exact (guard_false_wp hw hs fun _ => tail hne w o (.refl hw hs) rfl).mono lift
    · exact (guard_true_wp hw hs fun _ => tail hne).mono lift
  · have hnil : o.entries = [] := List.eq_nil_of_length_eq_zero (by omega)
    rw [if_neg hlen]
    exact ⟨o, fun _ => ⟨rfl, rfl, rfl⟩, fun h => absurd hnil h⟩

/-! ## `undo` -/

theorem undo_wp {τ : Arith} {w : World} {s : ℕ} {o : SeqObj} (hw : w.WF τ) (hs : w.seqs[s]? = some o) :
    Wp (Seq.undo s) (fun res w' => ∃ o', Step τ w w' s o o' ∧
      (o.previousEntries = none → res = .error .assertion ∧ w' = w ∧ o' = o) ∧
      (∀ ps, o.previousEntries = some ps → res = .ok () ∧ w'.entries = w.entries ∧
        o' = { o with entries := ps, product := o.previousProduct, previousEntries := none,
                      previousProduct := none }) ∧
      (∀ n, Exact0 τ n w o → ProdOk w'.entries n o')) w := by
  unfold Seq.undo
  refine Wp.getSeq_bind hs (Wp.assert_bind (fun h => ?_) fun h => ?_)
  · obtain ⟨ps, hps⟩ := Option.ne_none_iff_exists'.mp h
    refine Wp.setSeq ⟨_, .setSeq hw.entries ?_ rfl rfl, fun h' => absurd h' h, fun ps' hps' => ?_, fun n hx => ?_⟩
    · rw [hps]; exact ⟨(hw.seq hs).prev ps hps, fun _ h => (by cases h)⟩
    · rw [hps] at hps'; cases hps'
      exact ⟨rfl, rfl, by rw [hps]; rfl⟩
    · refine ⟨fun p hp => ?_, fun _ h => (by cases h), fun _ => rfl⟩
      obtain ⟨ps', h1, h2, h3⟩ := hx.prod.prev p hp
      refine ⟨h2, ?_⟩
      simp only [h1, Option.getD_some]
      exact h3
  · have hn : o.previousEntries = none := by simpa using h
    exact ⟨o, .refl hw hs, fun _ => ⟨rfl, rfl, rfl⟩, fun ps h => (by rw [hn] at h; cases h), fun n hx => hx.prod⟩

end Stoq
