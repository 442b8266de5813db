import Verif.Proofs.DriftSeq
import Verif.Proofs.SequenceCombine

/-! Stored products in exact arithmetic, when they need not be the products of the stored entries. -/

namespace Stoq

open World Matrix

/-- `A` is what `product()` returns, and `B` what it returns after `undo()`. -/
structure ValOk (n : ℕ) (es : List EntryObj) (o : SeqObj) (A B : Matrix (Fin (2 ^ n)) (Fin (2 ^ n)) ℂ) : Prop where
  dim : o.dimension = 2 ^ n
  prod : ∀ p, o.product = some p → p.Exact (2 ^ n) ∧ p.matrix.toMatrix (2 ^ n) = A
  fresh : o.product = none → A = circuit n (valsOf es o.entries)
  prev : ∀ ps, o.previousEntries = some ps → (∀ p, o.previousProduct = some p → p.Exact (2 ^ n) ∧
    p.matrix.toMatrix (2 ^ n) = B) ∧ (o.previousProduct = none → B = circuit n (valsOf es ps))
  none : o.product = none → o.previousProduct = none

section

variable {n : ℕ} {es es' : List EntryObj} {o o' : SeqObj} {A B : Matrix (Fin (2 ^ n)) (Fin (2 ^ n)) ℂ} {w w' w'' : World}
  {s : ℕ}

theorem ValOk.grow (h : ValOk n es o A B) (hs : SeqOk es o) (hg : Grow es es') : ValOk n es' o A B where
  dim := h.dim
  prod := h.prod
  fresh hn := by rw [hs.entries.vals_grow hg]; exact h.fresh hn
  prev ps hp := ⟨(h.prev ps hp).1, fun hn => by rw [(hs.prev ps hp).vals_grow hg]; exact (h.prev ps hp).2 hn⟩
  none := h.none

/-- Every sequence of `w` has the same products in `w'`. -/
def ValExt (w w' : World) : Prop :=
  ∀ (t : ℕ) (o : SeqObj) (m : ℕ) (A B : Matrix (Fin (2 ^ m)) (Fin (2 ^ m)) ℂ), w.seqs[t]? = some o →
    ValOk m w.entries o A B → ∃ o', w'.seqs[t]? = some o' ∧ ValOk m w'.entries o' A B

theorem ValExt.refl : ValExt w w := fun _ o _ _ _ h hd => ⟨o, h, hd⟩

theorem ValExt.trans (h : ValExt w w') (h' : ValExt w' w'') : ValExt w w'' := by
  intro t o m A B ho hd
  obtain ⟨o1, h1, h3⟩ := h t o m A B ho hd
  exact h' t o1 m A B h1 h3

theorem ValExt.of_prefix {τ : Arith} (hw : w.WF τ) (hg : Grow w.entries w'.entries)
    (h : ∀ t, t < w.seqs.length → w'.seqs[t]? = w.seqs[t]?) : ValExt w w' := by
  intro t o m A B ho hd
  exact ⟨o, by rw [h t (List.getElem?_eq_some_iff.mp ho).1]; exact ho, hd.grow (hw.seq ho) hg⟩

theorem ValExt.setNew (h : ValExt w w') {t : ℕ} (ht : w.seqs.length ≤ t) (x : SeqObj) :
    ValExt w { w' with seqs := w'.seqs.set t x } := by
  intro t' o m A B ho hd
  have hlt := (List.getElem?_eq_some_iff.mp ho).1
  obtain ⟨o1, h1, h3⟩ := h t' o m A B ho hd
  refine ⟨o1, ?_, h3⟩
  show (w'.seqs.set t x)[t']? = _
  rw [List.getElem?_set_ne (by omega)]; exact h1

theorem product_val (h : ValOk n w.entries o A B) (hx : ExactEs w.entries) (hw : w.WF 0) (hs : w.seqs[s]? = some o) :
    Wp (Seq.product 0 s) (fun res w' => ∃ o' p, ProductPost 0 w s o res w' o' ∧ res = .ok p ∧ p.Exact (2 ^ n) ∧
      p.matrix.toMatrix (2 ^ n) = A ∧ ValOk n w'.entries o' A B) w := by
  have hso := hw.seq hs
  refine (product_wp hw hs).mono ?_
  rintro res w' ⟨o', hp⟩
  have mk : ∀ p : Unitary, res = .ok p → p.Exact (2 ^ n) → p.matrix.toMatrix (2 ^ n) = A → ValOk n w'.entries o' A B := by
    intro p hr h1 h2
    have hst := hp.stored p hr
    refine ⟨hp.same.dim.trans h.dim, fun q hq => ?_, fun hn => ?_, fun ps hps => ?_, fun hn => ?_⟩
    · rw [hst] at hq; cases hq; exact ⟨h1, h2⟩
    · rw [hst] at hn; cases hn
    · rw [hp.same.prev] at hps
      rw [hp.same.prevProd, (hso.prev ps hps).vals_grow hp.step.grow]
      exact h.prev ps hps
    · rw [hst] at hn; cases hn
  rcases hop : o.product with _ | q
  · have hr := hp.fresh hop
    have hrefs := hso.entries
    rw [h.dim] at hr hrefs
    obtain ⟨p, h1, h2, h3⟩ := freshProduct_exact (refsOk_vals hw.entries hrefs hx)
    have h4 : p.matrix.toMatrix (2 ^ n) = A := h3.trans (h.fresh hop).symm
    exact ⟨o', p, hp, hr.trans h1, h2, h4, mk p (hr.trans h1) h2 h4⟩
  · obtain ⟨hr, -⟩ := hp.cached q hop
    obtain ⟨h1, h2⟩ := h.prod q hop
    exact ⟨o', q, hp, hr, h1, h2, mk q hr h1 h2⟩

theorem product_valExt (hx : ExactEs w.entries) (hw : w.WF 0) (hs : w.seqs[s]? = some o) :
    Wp (Seq.product 0 s) (fun _ w' => ValExt w w') w := by
  have h1 := product_wp hw hs
  have h2 : Wp (Seq.product 0 s) (fun res w' => ∀ x : (Σ' (m : ℕ) (A B : Matrix (Fin (2 ^ m)) (Fin (2 ^ m)) ℂ),
      ValOk m w.entries o A B), ∃ o' p, ProductPost 0 w s o res w' o' ∧ res = .ok p ∧ p.Exact (2 ^ x.1) ∧
      p.matrix.toMatrix (2 ^ x.1) = x.2.1 ∧ ValOk x.1 w'.entries o' x.2.1 x.2.2.1) w :=
    fun x => product_val x.2.2.2 hx hw hs
  refine (h1.and h2).mono ?_
  rintro res w' ⟨⟨o1, hp⟩, h2⟩ t o' m A B ho hd
  by_cases ht : t = s
  · subst ht
    rw [hs] at ho; cases ho
    obtain ⟨o2, p, h3, -, -, -, h4⟩ := h2 ⟨m, A, B, hd⟩
    exact ⟨o2, h3.step.get hs, h4⟩
  · exact ⟨o', by rw [hp.step.get_ne ht]; exact ho, hd.grow (hw.seq ho) hp.step.grow⟩

theorem isProductOf_val (h : ValOk n w.entries o A B) (hx : ExactEs w.entries) (hw : w.WF 0) (hs : w.seqs[s]? = some o)
    {p : Unitary} (hp : IsProductOf 0 w o p) : p.Exact (2 ^ n) ∧ p.matrix.toMatrix (2 ^ n) = A := by
  rcases hop : o.product with _ | q
  · have hrefs := (hw.seq hs).entries
    have hr := hp.2 hop
    rw [h.dim] at hr hrefs
    obtain ⟨q, h1, h2, h3⟩ := freshProduct_exact (refsOk_vals hw.entries hrefs hx)
    rw [hr] at h1; cases h1
    exact ⟨h2, h3.trans (h.fresh hop).symm⟩
  · rw [hp.1 q hop]; exact h.prod q hop

/-- `inverse` succeeds on list-backed sequences, and keeps the products of all others. -/
theorem inverse_runs_val (h : ValOk n w.entries o A B) (hx : ExactEs w.entries) (hw : w.WF 0)
    (hs : w.seqs[s]? = some o) :
    Wp (Seq.inverse 0 s) (fun res w' => ValExt w w' ∧ (o.isArray = false → ∃ t, res = .ok t)) w := by
  have hslt := (List.getElem?_eq_some_iff.mp hs).1
  have hso := hw.seq hs
  unfold Seq.inverse
  refine Wp.getSeq_bind hs (Wp.bind ((getSequenceEntries_wp hw hs).mono ?_))
  rintro _ w1 ⟨rs1, rfl, ext1, hseq1, cop1⟩
  refine Wp.bind ((new_wp ext1.wf cop1.lt).mono ?_)
  rintro res2 w2 ⟨-, hnew⟩
  obtain ⟨rs2, rfl, ext2, hseq2, cop2⟩ := hnew (cop1.refs hso.entries)
  have ext12 := ext1.trans ext2
  rw [hseq1] at hseq2
  have hinv : w2.seqs[w1.seqs.length]? = some ⟨o.dimension, o.isArray, rs2, none, none, none⟩ := by
    rw [hseq2, hseq1, List.getElem?_append_right (le_refl _)]; simp
  have hget : ∀ t, t < w.seqs.length → w2.seqs[t]? = w.seqs[t]? := fun t ht => by
    rw [hseq2, List.getElem?_append_left ht]
  simp only
  refine Wp.getSeq_bind hinv ?_
  unfold Seq.requireList
  refine Wp.lift_bind (fun _ ha => ?_) fun err ha => ?_
  swap
  · have harr : o.isArray = true := by
      by_contra h
      rw [raiseUnless_of (by simpa using h)] at ha; cases ha
    exact ⟨.of_prefix hw ext12.grow hget, fun h => by rw [harr] at h; cases h⟩
  have harr : o.isArray = false := raiseUnless_eq_ok.mp ha
  refine Wp.setSeq_bind ?_
  rw [hseq1] at *
  simp only [harr]
  have hfresh : ∀ r ∈ rs2, w.entries.length ≤ r := fun r hr =>
    (Copied.grow_len ext1).trans (cop2.fresh r hr)
  have hrefs2 : RefsOk w2.entries o.dimension rs2 := cop2.refs (cop1.refs hso.entries)
  have hrev : RefsOk w2.entries o.dimension rs2.reverse := fun r hr => hrefs2 r (List.mem_reverse.mp hr)
  set w3 : World := { w2 with seqs := w2.seqs.set w.seqs.length ⟨o.dimension, false, rs2.reverse, none, none, none⟩ }
    with hw3
  have ext3 : Ext 0 w w3 := ext12.setNew (le_refl _) ⟨hrev, fun _ h => (by cases h)⟩
  have hget3 : ∀ t, t < w.seqs.length → w3.seqs[t]? = w.seqs[t]? := fun t ht => by
    rw [show w3.seqs = w2.seqs.set w.seqs.length _ from rfl, List.getElem?_set_ne (by omega), hget t ht]
  have hx3 : ExactEs w3.entries := cop2.nonew.forall (cop1.nonew.forall hx)
  refine Wp.bind ((invertEntries_wp rs2.reverse w3 ext3.wf.entries
    (fun r hr => cop2.lt r (List.mem_reverse.mp hr))).mono ?_)
  intro res4 w4 hi
  obtain ⟨rfl, hx4⟩ := hi.exact rfl hx3
  have ext4 : Ext 0 w w4 := ext3.invertNew (fun r hr => hfresh r (List.mem_reverse.mp hr)) hi
  have hseq4 : w4.seqs = w3.seqs := by rw [hi.eq]
  have hget4 : ∀ t, t < w.seqs.length → w4.seqs[t]? = w.seqs[t]? := fun t ht => by rw [hseq4, hget3 t ht]
  have hd4 : ValExt w w4 := .of_prefix hw ext4.grow hget4
  simp only
  have hs4 : w4.seqs[s]? = some o := by rw [hget4 s hslt, hs]
  have hok4 := h.grow hso ext4.grow
  refine Wp.bind (((product_valExt hx4 ext4.wf hs4).and (product_val hok4 hx4 ext4.wf hs4)).mono ?_)
  rintro res5 w5 ⟨hd5, o5, p, hp, rfl, hpe, -, -⟩
  simp only
  obtain ⟨p', hp', -⟩ := inverse_exact hpe
  refine Wp.lift_bind (fun p2 hp2 => ?_) fun err herr => ?_
  · exact Wp.setSeq_bind (Wp.pure ⟨(hd4.trans hd5).setNew (le_refl _) _, fun _ => ⟨_, rfl⟩⟩)
  · rw [hp'] at herr; cases herr

/-- The whole effect of `inverse`. -/
theorem inverse_val (h : ValOk n w.entries o A B) (hx : ExactEs w.entries) (hw : w.WF 0) (hs : w.seqs[s]? = some o) :
    Wp (Seq.inverse 0 s) (fun res w' => Ext 0 w w' ∧ ValExt w w' ∧ ExactEs w'.entries ∧
      (o.isArray = true → res = .error .attributeError) ∧
      (o.isArray = false → res = .ok w.seqs.length ∧ ∃ f p', w'.seqs[w.seqs.length]? =
          some ⟨o.dimension, false, (o.entries.map f).reverse, some p', none, none⟩ ∧ p'.Exact (2 ^ n) ∧
        p'.matrix.toMatrix (2 ^ n) = Aᴴ ∧
        (∀ a ∈ o.entries, ∀ b ∈ o.entries, f a = f b → a = b) ∧ (∀ a ∈ o.entries, w.entries.length ≤ f a) ∧
        (∀ r ∈ o.entries, ∀ x : EntryObj, w.entries[r]? = some x → ∃ x' : EntryObj, w'.entries[f r]? = some x' ∧ x'.toVal =
          (if o.entries.count r % 2 = 1 then x.toVal.dagger else x.toVal)))) w := by
  refine ((inverse_wp hw hs).and (inverse_runs_val h hx hw hs)).mono ?_
  rintro res w' ⟨hpost, hext, hok⟩
  refine ⟨hpost.ext, hext, hpost.exactEs rfl hx, hpost.array, fun harr => ?_⟩
  obtain ⟨t, rfl⟩ := hok harr
  obtain ⟨rfl, -, p, p', f, hobj, hp, hp', hinj, hfr, hinv⟩ := hpost.ok t rfl
  obtain ⟨h1, h2⟩ := isProductOf_val h hx hw hs hp
  obtain ⟨q, h3, h4, h5⟩ := inverse_exact h1
  rw [hp'] at h3; cases h3
  refine ⟨rfl, f, p', hobj, h4, by rw [h5, h2], hinj, hfr, fun r hr x hxr => ?_⟩
  obtain ⟨x', h6, h7⟩ := hinv r x hr hxr
  exact ⟨x', h6, invN_exact (hx x (List.mem_of_getElem? hxr)) h7⟩

/-! ## `combine` -/

/-- The sequences have these products. -/
def ValSeqs (n : ℕ) (w : World) (ss : List ℕ) (gss : List (List EntryVal)) : Prop :=
  List.Forall₂ (fun s gs => ∃ o B, w.seqs[s]? = some o ∧ ValOk n w.entries o (circuit n gs) B) ss gss

theorem ValSeqs.ext {ss : List ℕ} {gss : List (List EntryVal)} (h : ValSeqs n w ss gss) (he : ValExt w w') :
    ValSeqs n w' ss gss := by
  refine List.Forall₂.imp ?_ h
  rintro s gs ⟨o, B, h1, h2⟩
  obtain ⟨o', h3, h4⟩ := he s o n _ B h1 h2
  exact ⟨o', B, h3, h4⟩

theorem ValSeqs.seqsOk {ss : List ℕ} {gss : List (List EntryVal)} (h : ValSeqs n w ss gss) : SeqsOk w (2 ^ n) ss := by
  intro s hs
  induction h with
  | nil => cases hs
  | cons h1 _ ih =>
    rcases List.mem_cons.mp hs with rfl | hs
    · obtain ⟨o, B, h2, h3⟩ := h1
      exact ⟨o, h2, h3.dim⟩
    · exact ih hs

theorem combineLoop_val {ss : List ℕ} {gss : List (List EntryVal)} (es : List ℕ) (p : Unitary)
    {V : Matrix (Fin (2 ^ n)) (Fin (2 ^ n)) ℂ} (hw : w.WF 0) (hx : ExactEs w.entries)
    (h : ValSeqs n w ss gss) (hp : p.Exact (2 ^ n)) (hV : p.matrix.toMatrix (2 ^ n) = V) :
    Wp (Seq.combineLoop 0 ss es p) (fun res w' => ValExt w w' ∧ ∃ es' p', res = .ok (es', p') ∧ p'.Exact (2 ^ n) ∧
      p'.matrix.toMatrix (2 ^ n) = circuit n gss.flatten * V) w := by
  induction ss generalizing gss es p V w with
  | nil =>
    cases h
    exact Wp.pure ⟨.refl, es, p, rfl, hp, by simpa [circuit] using hV⟩
  | cons s ss ih =>
    cases h with
    | @cons _ gs _ gss h1 h2 =>
    obtain ⟨o, B, hs, hd⟩ := h1
    unfold Seq.combineLoop
    have hso := hw.seq hs
    refine Wp.bind ((getSequenceEntries_wp hw hs).mono ?_)
    rintro _ w1 ⟨rs1, rfl, ext1, hseq1, cop1⟩
    have hs1 : w1.seqs[s]? = some o := by rw [hseq1]; exact hs
    have hd1 : ValExt w w1 := .of_prefix hw ext1.grow fun t _ => by rw [hseq1]
    have hok1 := hd.grow hso ext1.grow
    have hx1 : ExactEs w1.entries := cop1.nonew.forall hx
    simp only
    refine Wp.bind (((product_valExt hx1 ext1.wf hs1).and (product_val hok1 hx1 ext1.wf hs1)).mono ?_)
    rintro res2 w2 ⟨hd2, o2, q, hpp, rfl, hqe, hqm, -⟩
    simp only
    obtain ⟨p', hp', hpe, hpm⟩ := leftMultiply_exact hp hqe
    refine Wp.lift_bind (fun p2 hp2 => ?_) fun err herr => ?_
    · rw [hp'] at hp2; cases hp2
      have hd12 := hd1.trans hd2
      refine (ih (gss := gss) (es := es ++ rs1) (p := p') (hpp.step.wf ext1.wf) (hpp.step.exact hx1)
        (ValSeqs.ext h2 hd12) hpe hpm).mono ?_
      rintro res w' ⟨h3, es', q', h4, h5, h6⟩
      refine ⟨hd12.trans h3, es', q', h4, h5, ?_⟩
      rw [h6, List.flatten_cons, circuit_append, hqm, hV, Matrix.mul_assoc]
    · rw [hp'] at herr; cases herr

end

end Stoq
