import Verif.Proofs.DriftHeap
import Verif.Proofs.History

/-! The drift invariant of a sequence object and its preservation. -/

namespace Stoq

open World Matrix
open scoped Matrix.Norms.L2Operator

/-- After at most `k` operations the object stands for the gates `gs`, with saved state `prev`. -/
structure DriftOk (n : ℕ) (t ε : ℝ) (k : ℕ) (es : List EntryObj) (o : SeqObj) (gs : List Gate)
    (prev : Option (List Gate)) : Prop where
  dim : o.dimension = 2 ^ n
  ents : RealisesAll ε (valsOf es o.entries) gs
  gok : ∀ g ∈ gs, g.Ok n
  len : gs.length ≤ k
  prod : ∀ p, o.product = some p → p.Near (gateProduct n gs) (driftErr n t ε k)
  prevE : Option.Rel (RealisesAll ε) (o.previousEntries.map (valsOf es)) prev
  prevG : ∀ gs', prev = some gs' → (∀ g ∈ gs', g.Ok n) ∧ gs'.length ≤ k
  prevP : ∀ p, o.previousProduct = some p → ∃ gs', prev = some gs' ∧ p.Near (gateProduct n gs') (driftErr n t ε k)
  noprod : o.product = none → o.previousProduct = none

section

variable {n k k' : ℕ} {τ : Arith} {t ε : ℝ} {es es' : List EntryObj} {o o' : SeqObj} {gs gs' : List Gate} {prev : Option (List Gate)}

theorem DriftOk.mono (h : DriftOk n t ε k es o gs prev) (hτ : 0 ≤ t) (hε : 0 ≤ ε) (hk : k ≤ k') :
    DriftOk n t ε k' es o gs prev where
  dim := h.dim
  ents := h.ents
  gok := h.gok
  len := h.len.trans hk
  prod p hp := (h.prod p hp).mono (driftErr_mono hτ hε hk)
  prevE := h.prevE
  prevG gs' hg := ⟨(h.prevG gs' hg).1, (h.prevG gs' hg).2.trans hk⟩
  prevP p hp := by
    obtain ⟨gs', h1, h2⟩ := h.prevP p hp
    exact ⟨gs', h1, h2.mono (driftErr_mono hτ hε hk)⟩
  noprod := h.noprod

theorem DriftOk.grow (h : DriftOk n t ε k es o gs prev) (ho : SeqOk es o) (hg : Grow es es') :
    DriftOk n t ε k es' o gs prev where
  dim := h.dim
  ents := by rw [ho.entries.vals_grow hg]; exact h.ents
  gok := h.gok
  len := h.len
  prod := h.prod
  prevE := by rw [prevVals_grow ho hg]; exact h.prevE
  prevG := h.prevG
  prevP := h.prevP
  noprod := h.noprod

theorem forall₂_concat_left {α β : Type} {R : α → β → Prop} {l : List α} {a : α} {l' : List β}
    (h : List.Forall₂ R (l ++ [a]) l') : ∃ l0 b, l' = l0 ++ [b] ∧ List.Forall₂ R l l0 ∧ R a b := by
  induction l generalizing l' with
  | nil =>
    obtain ⟨b, t, h1, h2, rfl⟩ := List.forall₂_cons_left_iff.mp h
    cases h2
    exact ⟨[], b, rfl, .nil, h1⟩
  | cons x l ih =>
    obtain ⟨b, t, h1, h2, rfl⟩ := List.forall₂_cons_left_iff.mp h
    obtain ⟨l0, b', rfl, h3, h4⟩ := ih h2
    exact ⟨b :: l0, b', rfl, .cons h1 h3, h4⟩

theorem RealisesAll.cons {e : EntryVal} {g : Gate} {l : List EntryVal} (h : e.Realises g ε) (hl : RealisesAll ε l gs) :
    RealisesAll ε (e :: l) (g :: gs) := List.Forall₂.cons h hl

theorem RealisesAll.append {l l' : List EntryVal} (h : RealisesAll ε l gs) (h' : RealisesAll ε l' gs') :
    RealisesAll ε (l ++ l') (gs ++ gs') := forall₂_append' h h'

theorem RealisesAll.tail {l : List EntryVal} (h : RealisesAll ε l gs) : RealisesAll ε l.tail gs.tail := by
  cases h with
  | nil => exact .nil
  | cons _ h => exact h

theorem RealisesAll.dropLast {l : List EntryVal} (h : RealisesAll ε l gs) : RealisesAll ε l.dropLast gs.dropLast := by
  unfold RealisesAll at *
  rw [List.dropLast_eq_take, List.dropLast_eq_take, h.length_eq]
  exact List.forall₂_take _ h

end

section

variable {n k : ℕ} {τ : Arith} {t ε : ℝ} {w w' : World} {s : ℕ} {o o' : SeqObj} {gs gs' : List Gate} {prev : Option (List Gate)}
  {b : Bool} {upd : List ℕ} {res : Except PyErr Unit}

/-- The result of a mutator: success with the new gates on list-backed sequences, `AttributeError` on arrays. -/
def DriftRes (n : ℕ) (t ε : ℝ) (k : ℕ) (o : SeqObj) (gs gs' : List Gate) (prev : Option (List Gate)) (b : Bool)
    (res : Except PyErr Unit) (w' : World) (o' : SeqObj) : Prop :=
  (o.isArray = false → res = .ok () ∧ DriftOk n t ε (k + 1) w'.entries o' gs' (if b then some gs else prev)) ∧
  (o.isArray = true → res = .error .attributeError ∧
    DriftOk n t ε (k + 1) w'.entries o' gs (if b then some gs else prev))

theorem saves_drift (h : DriftOk n t ε k w.entries o gs prev) (hb : Budget n τ t ε (k + 1)) (b : Bool) :
    Saves τ o b (fun p => p.Near (gateProduct n gs) (driftErr n t ε (k + 1))) := fun _ p hp =>
  rewrap_drift hb (gateProduct_mem h.gok) (h.prod p hp)

theorem DriftOk.prevStep (h : DriftOk n t ε k w.entries o gs prev)
    (hu : o'.previousEntries.map (valsOf w'.entries) =
      if b then some (valsOf w.entries o.entries) else o.previousEntries.map (valsOf w.entries)) :
    Option.Rel (RealisesAll ε) (o'.previousEntries.map (valsOf w'.entries)) (if b then some gs else prev) ∧
    (∀ gs', (if b then some gs else prev) = some gs' → (∀ g ∈ gs', g.Ok n) ∧ gs'.length ≤ k + 1) := by
  rw [hu]
  cases b
  · refine ⟨h.prevE, fun gs' hg => ⟨(h.prevG gs' hg).1, ?_⟩⟩
    have := (h.prevG gs' hg).2
    omega
  · refine ⟨.some h.ents, fun gs' hg => ?_⟩
    cases hg
    exact ⟨h.gok, by have := h.len; omega⟩

theorem DriftOk.prevVal (h : DriftOk n t ε k w.entries o gs prev) (hb : Budget n τ t ε (k + 1)) {P : Unitary → Prop}
    (hv : ValPost o b P (fun p => p.Near (gateProduct n gs) (driftErr n t ε (k + 1))) o') (p : Unitary)
    (hp : o'.previousProduct = some p) :
    ∃ gs', (if b then some gs else prev) = some gs' ∧ p.Near (gateProduct n gs') (driftErr n t ε (k + 1)) := by
  have hle := driftErr_mono (n := n) hb.t0 hb.eps (Nat.le_succ k)
  cases b
  · rw [hv.keep (.inl rfl)] at hp
    obtain ⟨gs', h1, h2⟩ := h.prevP p hp
    exact ⟨gs', h1, h2.mono hle⟩
  · by_cases hn : o.product = none
    · rw [hv.keep (.inr hn), h.noprod hn] at hp; cases hp
    · exact ⟨gs, rfl, hv.prev rfl hn p hp⟩

theorem drift_mut (h : DriftOk n t ε k w.entries o gs prev) (hb : Budget n τ t ε (k + 1)) (hw : w.WF τ)
    (hs : w.seqs[s]? = some o) (hm : ModPost τ w s o b upd res w' o')
    (hv : ValRes s o b (fun p => p.Near (gateProduct n gs') (driftErr n t ε (k + 1)))
      (fun p => p.Near (gateProduct n gs) (driftErr n t ε (k + 1))) res w')
    (hlt : ∀ r ∈ upd, r < w.entries.length) (hupd : RealisesAll ε (valsOf w.entries upd) gs')
    (hgok : ∀ g ∈ gs', g.Ok n) (hlen : gs'.length ≤ k + 1) :
    DriftRes n t ε k o gs gs' prev b res w' o' := by
  refine ⟨fun harr => ?_, fun harr => ?_⟩
  · have hm := hm.1 harr
    obtain ⟨hres, o2, ho2, hv⟩ := hv.1 harr
    rw [hm.step.get hs] at ho2; cases ho2
    obtain ⟨hpe, hpg⟩ := h.prevStep hm.undo
    refine ⟨hres, hm.step.dim.trans h.dim, ?_, hgok, hlen, hv.prod, hpe, hpg, h.prevVal hb hv, ?_⟩
    · rw [hm.ok hres, valsOf_grow hlt hm.step.grow]; exact hupd
    · intro hn
      have hp := hv.noprod.mp hn
      rw [hv.keep (.inr hp)]; exact h.noprod hp
  · have hm := hm.2 harr
    obtain ⟨hres, o2, ho2, hv⟩ := hv.2 harr
    rw [hm.step.get hs] at ho2; cases ho2
    obtain ⟨hpe, hpg⟩ := h.prevStep hm.undo
    have hle := driftErr_mono (n := n) hb.t0 hb.eps (Nat.le_succ k)
    refine ⟨hres, hm.step.dim.trans h.dim, ?_, h.gok, by have := h.len; omega,
      fun p hp => (h.prod p (hm.product ▸ hp)).mono hle, hpe, hpg, h.prevVal hb hv, fun hn => ?_⟩
    · rw [hm.entries, (hw.seq hs).entries.vals_grow hm.step.grow]; exact h.ents
    · rw [hm.product] at hn
      rw [hv.keep (.inr hn)]; exact h.noprod hn

theorem lt_of_get {r : ℕ} {x : EntryObj} (h : w.entries[r]? = some x) : r < w.entries.length :=
  (List.getElem?_eq_some_iff.mp h).1

variable {e : ℕ} {x : EntryObj} {g : Gate}

theorem appendLast_drift (h : DriftOk n t ε k w.entries o gs prev) (hb : Budget n τ t ε (k + 1)) (hw : w.WF τ)
    (hs : w.seqs[s]? = some o) (he : w.entries[e]? = some x) (hx : x.toVal.Realises g ε) (hg : g.Ok n) (b : Bool) :
    Wp (Seq.appendLast τ s e b) (fun res w' => ∃ o', AppendPost τ w s o x b (o.entries ++ [e]) res w' o' ∧
      DriftRes n t ε k o gs (gs ++ [g]) prev b res w' o') w := by
  have hfit : FitsDim x.toVal o.dimension := by rw [h.dim]; exact (hx.wf hg).fitsDim (hx.fits hg)
  have hv := appendLast_val (P := fun p => p.Near (gateProduct n (gs ++ [g])) (driftErr n t ε (k + 1))) hw hs he hfit b
    (saves_drift h hb b) (by
      intro p hp
      rw [h.dim]
      obtain ⟨f, hf, hfn⟩ := full_drift hb hg hx
      have h1 := two_pow_tau_nonneg n hb.t0
      obtain ⟨p', hp', hpn⟩ := leftMul_drift hb (gateProduct_mem h.gok) (h.prod p hp) hg.op_mem hfn (by linarith)
      exact ⟨f, hf, p', hp', gateProduct_concat n gs g ▸ hpn⟩)
  refine ((appendLast_wp hw hs he b).and hv).mono ?_
  rintro res w' ⟨⟨o', h1⟩, h2⟩
  refine ⟨o', h1, drift_mut h hb hw hs (h1.accept hfit) h2 ?_ ?_ ?_ ?_⟩
  · intro r hr
    rcases List.mem_append.mp hr with hr | hr
    · exact (hw.seq hs).entries.lt r hr
    · rw [List.mem_singleton] at hr; subst hr; exact lt_of_get he
  · rw [valsOf_append, valsOf_cons he, valsOf_nil]
    exact h.ents.append (.cons hx .nil)
  · intro g' hg'
    rcases List.mem_append.mp hg' with hg' | hg'
    · exact h.gok g' hg'
    · rw [List.mem_singleton] at hg'; subst hg'; exact hg
  · have := h.len; simp; exact this

theorem appendFirst_drift (h : DriftOk n t ε k w.entries o gs prev) (hb : Budget n τ t ε (k + 1)) (hw : w.WF τ)
    (hs : w.seqs[s]? = some o) (he : w.entries[e]? = some x) (hx : x.toVal.Realises g ε) (hg : g.Ok n) (b : Bool) :
    Wp (Seq.appendFirst τ s e b) (fun res w' => ∃ o', AppendPost τ w s o x b (e :: o.entries) res w' o' ∧
      DriftRes n t ε k o gs (g :: gs) prev b res w' o') w := by
  have hfit : FitsDim x.toVal o.dimension := by rw [h.dim]; exact (hx.wf hg).fitsDim (hx.fits hg)
  have hv := appendFirst_val (P := fun p => p.Near (gateProduct n (g :: gs)) (driftErr n t ε (k + 1))) hw hs he hfit b
    (saves_drift h hb b) (by
      intro p hp
      rw [h.dim]
      obtain ⟨f, hf, hfn⟩ := full_drift hb hg hx
      have h1 := two_pow_tau_nonneg n hb.t0
      obtain ⟨p', hp', hpn⟩ := rightMul_drift hb (gateProduct_mem h.gok) (h.prod p hp) hg.op_mem hfn (by linarith)
      exact ⟨f, hf, p', hp', hpn⟩)
  refine ((appendFirst_wp hw hs he b).and hv).mono ?_
  rintro res w' ⟨⟨o', h1⟩, h2⟩
  refine ⟨o', h1, drift_mut h hb hw hs (h1.accept hfit) h2 ?_ ?_ ?_ ?_⟩
  · intro r hr
    rcases List.mem_cons.mp hr with rfl | hr
    · exact lt_of_get he
    · exact (hw.seq hs).entries.lt r hr
  · rw [valsOf_cons he]
    exact h.ents.cons hx
  · intro g' hg'
    rcases List.mem_cons.mp hg' with rfl | hg'
    · exact hg
    · exact h.gok g' hg'
  · have := h.len; simp; exact this

theorem removeFirst_drift (h : DriftOk n t ε k w.entries o gs prev) (hb : Budget n τ t ε (k + 1)) (hw : w.WF τ)
    (hs : w.seqs[s]? = some o) (b : Bool) (hne : o.entries ≠ []) :
    Wp (Seq.removeFirst τ s b) (fun res w' => ∃ o', RemovePost τ w s o b o.entries.tail res w' o' ∧
      DriftRes n t ε k o gs gs.tail prev b res w' o') w := by
  rcases hl : o.entries with _ | ⟨r, rest⟩
  · exact absurd hl hne
  have hlt := (hw.seq hs).entries.lt
  have hr := List.getElem?_eq_getElem (hlt r (by rw [hl]; simp))
  have hents := h.ents
  rw [hl, valsOf_cons hr] at hents
  obtain ⟨g, gs0, hx, hrest, hgs⟩ := List.forall₂_cons_left_iff.mp hents
  have hg := h.gok g (by rw [hgs]; simp)
  have hv := removeFirst_val (P := fun p => p.Near (gateProduct n gs.tail) (driftErr n t ε (k + 1))) hw hs hl hr b
    (saves_drift h hb b) (by
      intro p hp
      rw [h.dim]
      obtain ⟨f, hf, hfn⟩ := full_drift hb hg hx
      obtain ⟨i, hi, hin⟩ := fullInv_drift hb hg hfn
      obtain ⟨p', hp', hpn⟩ := rightMul_drift hb (gateProduct_mem h.gok) (h.prod p hp)
        (Unitary.ct_mem hg.op_mem) hin le_rfl
      refine ⟨f, hf, p', by simp only [hi, ok_bind, hp'], ?_⟩
      rw [hgs, gateProduct, Matrix.mul_assoc, hg.op_mul_ct, Matrix.mul_one] at hpn
      rw [hgs]; exact hpn)
  refine ((removeFirst_wp hw hs b).and hv).mono ?_
  rintro res w' ⟨⟨o', h1⟩, h2⟩
  rw [hl] at h1
  refine ⟨o', h1, drift_mut h hb hw hs (h1.some (by rw [hl]; simp)) h2 ?_ ?_ ?_ ?_⟩
  · intro r' hr'
    exact hlt r' (by rw [hl]; exact List.mem_of_mem_tail hr')
  · rw [hgs]; exact hrest
  · exact fun g' hg' => h.gok g' (List.mem_of_mem_tail hg')
  · have := h.len; simp; omega

theorem removeLast_drift (h : DriftOk n t ε k w.entries o gs prev) (hb : Budget n τ t ε (k + 1)) (hw : w.WF τ)
    (hs : w.seqs[s]? = some o) (b : Bool) (hne : o.entries ≠ []) :
    Wp (Seq.removeLast τ s b) (fun res w' => ∃ o', RemovePost τ w s o b o.entries.dropLast res w' o' ∧
      DriftRes n t ε k o gs gs.dropLast prev b res w' o') w := by
  obtain ⟨front, r, hl⟩ := List.eq_nil_or_concat' o.entries |>.resolve_left hne
  have hlt := (hw.seq hs).entries.lt
  have hr := List.getElem?_eq_getElem (hlt r (by rw [hl]; simp))
  have hents := h.ents
  rw [hl, valsOf_append, valsOf_cons hr, valsOf_nil] at hents
  obtain ⟨gs0, g, hgs, hfront, hx⟩ := forall₂_concat_left hents
  have hdl : gs.dropLast = gs0 := by rw [hgs]; simp
  have hg := h.gok g (by rw [hgs]; simp)
  have hv := removeLast_val (P := fun p => p.Near (gateProduct n gs.dropLast) (driftErr n t ε (k + 1))) hw hs hl hr b
    (saves_drift h hb b) (by
      intro p hp
      rw [h.dim]
      obtain ⟨f, hf, hfn⟩ := full_drift hb hg hx
      obtain ⟨i, hi, hin⟩ := fullInv_drift hb hg hfn
      obtain ⟨p', hp', hpn⟩ := leftMul_drift hb (gateProduct_mem h.gok) (h.prod p hp)
        (Unitary.ct_mem hg.op_mem) hin le_rfl
      refine ⟨f, hf, p', by simp only [hi, ok_bind, hp'], ?_⟩
      rw [hgs, gateProduct_concat, ← Matrix.mul_assoc, hg.op_ct_mul, Matrix.one_mul] at hpn
      rw [hdl]; exact hpn)
  refine ((removeLast_wp hw hs b).and hv).mono ?_
  rintro res w' ⟨⟨o', h1⟩, h2⟩
  refine ⟨o', h1, drift_mut h hb hw hs (h1.some hne) h2 ?_ ?_ ?_ ?_⟩
  · exact fun r' hr' => hlt r' (List.mem_of_mem_dropLast hr')
  · rw [hdl, hl, List.dropLast_concat]; exact hfront
  · exact fun g' hg' => h.gok g' (List.mem_of_mem_dropLast hg')
  · have := h.len; simp; omega

theorem undo_drift (h : DriftOk n t ε k w.entries o gs prev) {gs' : List Gate} (hp : prev = some gs') {ps : List ℕ}
    (hps : o.previousEntries = some ps) :
    DriftOk n t ε k w.entries { o with entries := ps, product := o.previousProduct, previousEntries := none,
                                       previousProduct := none } gs' none where
  dim := h.dim
  ents := by
    have := h.prevE
    rw [hps, hp] at this
    cases this with
    | some h => exact h
  gok := (h.prevG gs' hp).1
  len := (h.prevG gs' hp).2
  prod p hpp := by
    obtain ⟨gs2, h1, h2⟩ := h.prevP p hpp
    rw [hp] at h1; cases h1
    exact h2
  prevE := .none
  prevG _ h := by cases h
  prevP _ h := by cases h
  noprod _ := rfl

theorem DriftOk.prev_none (h : DriftOk n t ε k w.entries o gs prev) : o.previousEntries = none ↔ prev = none := by
  have := h.prevE
  rcases hp : o.previousEntries with _ | ps <;> rw [hp] at this <;> cases this <;> simp

/-- The number `product()` returns, and the object afterwards. -/
theorem product_drift (h : DriftOk n t ε k w.entries o gs prev) (hb : Budget n τ t ε k) (hw : w.WF τ)
    (hs : w.seqs[s]? = some o) :
    Wp (Seq.product τ s) (fun res w' => ∃ o' p, ProductPost τ w s o res w' o' ∧ res = .ok p ∧
      p.Near (gateProduct n gs) (driftErr n t ε k) ∧ DriftOk n t ε k w'.entries o' gs prev ∧ o'.product = some p) w := by
  refine (product_wp hw hs).mono ?_
  rintro res w' ⟨o', hpost⟩
  have key : ∃ p, res = .ok p ∧ p.Near (gateProduct n gs) (driftErr n t ε k) := by
    rcases hp : o.product with _ | p
    · obtain ⟨q, h1, h2⟩ := freshProduct_drift h.ents h.gok (hb.mono h.len)
      exact ⟨q, by rw [hpost.fresh hp, h.dim, h1], h2.mono (driftErr_mono hb.t0 hb.eps h.len)⟩
    · exact ⟨p, (hpost.cached p hp).1, h.prod p hp⟩
  obtain ⟨p, hres, hn⟩ := key
  have hst := hpost.stored p hres
  have hgr := h.grow (hw.seq hs) hpost.step.grow
  refine ⟨o', p, hpost, hres, hn, ?_, hst⟩
  have hsame := hpost.same
  refine ⟨hpost.step.dim.trans h.dim, by rw [hsame.entries]; exact hgr.ents, h.gok, h.len, ?_,
    by rw [hsame.prev]; exact hgr.prevE, h.prevG, ?_, ?_⟩
  · intro q hq; rw [hst] at hq; cases hq; exact hn
  · intro q hq; rw [hsame.prevProd] at hq; exact h.prevP q hq
  · intro hq; rw [hst] at hq; cases hq

end

end Stoq
