import Verif.Proofs.SequenceRead

/-! `inverse` and `combine`. -/

namespace Stoq

open World Matrix

/-! ## Inverting entry objects -/

/-- The content of an entry after its unitary was replaced by its inverse. -/
noncomputable def invVal (τ : Arith) (v : EntryVal) : Except PyErr EntryVal := do
  let u ← v.unitary.inverse τ
  return { v with unitary := u }

/-- `v'` is `v` inverted `k` times. -/
def InvN (τ : Arith) : ℕ → EntryVal → EntryVal → Prop
  | 0, v, v' => v' = v
  | k + 1, v, v' => ∃ v1, invVal τ v = .ok v1 ∧ InvN τ k v1 v'

theorem invVal_shape {τ : Arith} {v v' : EntryVal} (h : invVal τ v = .ok v') :
    v'.applyTo = v.applyTo ∧ v'.getDimension = v.getDimension := by
  unfold invVal at h
  obtain ⟨u, hu, h2⟩ := bind_eq_ok.mp h
  cases h2
  exact ⟨rfl, (Unitary.new_shape hu).2.1⟩

theorem invVal_wf {τ : Arith} {v v' : EntryVal} (h : invVal τ v = .ok v') (hv : v.WF) : v'.WF := by
  obtain ⟨h1, h2⟩ := invVal_shape h
  exact ⟨h1 ▸ hv.nodup, h1 ▸ hv.nonempty, by rw [h1, h2]; exact hv.dim⟩

theorem invVal_eq {v : EntryVal} (hv : v.Exact) : invVal 0 v = .ok v.dagger := by
  unfold invVal
  rw [Unitary.inverse_eq hv]; rfl

theorem dagger_exact {v : EntryVal} (hv : v.Exact) : v.dagger.Exact :=
  ⟨hv.1, hv.2.2.1, hv.2.1, by
    show (v.unitary.matrix.ct).toMatrix _ ∈ _
    rw [Arr.toMatrix_ct]; exact Unitary.ct_mem_su hv.2.2.2⟩

theorem dagger_dagger (v : EntryVal) : v.dagger.dagger = v := by
  simp [EntryVal.dagger, Arr.ct]

theorem op_dagger {v : EntryVal} {n : ℕ} : v.dagger.op n = (v.op n)ᴴ := by
  unfold EntryVal.op
  rw [← embed_conjTranspose]
  congr 1

theorem invN_exact {k : ℕ} {v v' : EntryVal} (hv : v.Exact) (h : InvN 0 k v v') :
    v' = if k % 2 = 1 then v.dagger else v := by
  induction k generalizing v with
  | zero => exact h
  | succ k ih =>
    obtain ⟨v1, h1, h2⟩ := h
    rw [invVal_eq hv] at h1; cases h1
    rw [ih (dagger_exact hv) h2, dagger_dagger]
    rcases Nat.mod_two_eq_zero_or_one k with hk | hk
    · rw [if_neg (by omega), if_pos (by omega)]
    · rw [if_pos hk, if_neg (by omega)]

theorem fitsDim_congr {v v' : EntryVal} {D : ℕ} (h1 : v'.applyTo = v.applyTo)
    (h2 : v'.getDimension = v.getDimension) (h : FitsDim v D) : FitsDim v' D := by
  unfold FitsDim; rw [h1, h2]; exact h

/-- Outcome of the inverting loop. -/
structure InvertPost (τ : Arith) (rs : List ℕ) (w : World) (res : Except PyErr Unit) (w' : World) : Prop where
  eq : w' = { w with entries := w'.entries }
  entriesOk : EntriesOk τ w'.entries
  other : ∀ r, r ∉ rs → w'.entries[r]? = w.entries[r]?
  shape : ∀ (r : ℕ) (x : EntryObj), w.entries[r]? = some x → ∃ x' : EntryObj, w'.entries[r]? = some x' ∧
    x'.toVal.applyTo = x.toVal.applyTo ∧ x'.toVal.getDimension = x.toVal.getDimension
  ok : res = .ok () → ∀ (r : ℕ) (x : EntryObj), w.entries[r]? = some x → ∃ x' : EntryObj,
    w'.entries[r]? = some x' ∧ InvN τ (rs.count r) x.toVal x'.toVal
  exact : τ = 0 → ExactEs w.entries → res = .ok () ∧ ExactEs w'.entries

theorem invertEntries_wp {τ : Arith} (rs : List ℕ) (w : World) (hw : EntriesOk τ w.entries)
    (hrs : ∀ r ∈ rs, r < w.entries.length) :
    Wp (Seq.invertEntries τ rs) (InvertPost τ rs w) w := by
  induction rs generalizing w with
  | nil =>
    unfold Seq.invertEntries
    exact Wp.pure ⟨rfl, hw, fun _ _ => rfl, fun r x hx => ⟨x, hx, rfl, rfl⟩, fun _ r x hx => ⟨x, hx, rfl⟩,
      fun _ h => ⟨rfl, h⟩⟩
  | cons r rs ih =>
    unfold Seq.invertEntries
    have hlt := hrs r (by simp)
    obtain ⟨x, hr⟩ : ∃ x, w.entries[r]? = some x := ⟨_, List.getElem?_eq_getElem hlt⟩
    have hxm : x ∈ w.entries := List.mem_of_getElem? hr
    refine Wp.getEntry_bind hr (Wp.lift_bind (fun u hu => ?_) fun err herr => ?_)
    · refine Wp.bind_ok rfl ?_
      have hinv : invVal τ x.toVal = .ok { x.toVal with unitary := u } := by unfold invVal; rw [hu]; rfl
      have hwf := invVal_wf hinv (hw x hxm).wf
      obtain ⟨hs1, hs2⟩ := invVal_shape hinv
      set x1 : EntryObj := { toVal := { x.toVal with unitary := u }, cache := [] } with hx1
      have hget1 : (w.entries.set r x1)[r]? = some x1 := List.getElem?_set_self hlt
      have hget2 : ∀ i, i ≠ r → (w.entries.set r x1)[i]? = w.entries[i]? := fun i hi =>
        List.getElem?_set_ne (Ne.symm hi)
      have := ih { w with entries := w.entries.set r x1 } (hw.set ⟨hwf, by simp [hx1]⟩)
        (by intro y hy; simpa using hrs y (by simp [hy]))
      refine this.mono ?_
      intro res w' h
      refine ⟨by rw [h.eq], h.entriesOk, ?_, ?_, ?_, ?_⟩
      · intro i hi
        rw [List.mem_cons, not_or] at hi
        rw [h.other i hi.2]; exact hget2 i hi.1
      · intro i y hy
        by_cases hir : i = r
        · subst hir
          rw [hr] at hy; cases hy
          obtain ⟨x', h1, h2, h3⟩ := h.shape i x1 hget1
          exact ⟨x', h1, h2.trans hs1, h3.trans hs2⟩
        · exact h.shape i y (by rw [← hy]; exact hget2 i hir)
      · intro hok i y hy
        by_cases hir : i = r
        · subst hir
          rw [hr] at hy; cases hy
          obtain ⟨x', h1, h2⟩ := h.ok hok i x1 hget1
          refine ⟨x', h1, ?_⟩
          rw [List.count_cons_self]
          exact ⟨_, hinv, h2⟩
        · rw [List.count_cons_of_ne (Ne.symm hir)]
          exact h.ok hok i y (by rw [← hy]; exact hget2 i hir)
      · intro hτ hex
        refine h.exact hτ ?_
        intro y hy
        rcases List.mem_or_eq_of_mem_set hy with hy | rfl
        · exact hex y hy
        · subst hτ
          rw [invVal_eq (hex x hxm)] at hinv
          cases hinv
          exact dagger_exact (hex x hxm)
    · refine ⟨rfl, hw, fun _ _ => rfl, fun r x hx => ⟨x, hx, rfl, rfl⟩, fun h => (by cases h), fun hτ hex => ?_⟩
      subst hτ
      rw [Unitary.inverse_eq (hex x hxm)] at herr; cases herr

/-! ## Changing new objects -/

theorem Ext.setNew {τ : Arith} {w w' : World} (h : Ext τ w w') {t : ℕ} (ht : w.seqs.length ≤ t) {o : SeqObj}
    (ho : SeqOk w'.entries o) : Ext τ w { w' with seqs := w'.seqs.set t o } where
  wf := ⟨h.wf.entries, fun x hx => by
    rcases List.mem_or_eq_of_mem_set hx with hx | rfl
    · exact h.wf.seqs x hx
    · exact ho⟩
  grow := h.grow
  betas := h.betas
  rng := h.rng
  seqs t' x hx := by
    have := (List.getElem?_eq_some_iff.mp hx).1
    rw [show ({ w' with seqs := w'.seqs.set t o } : World).seqs = w'.seqs.set t o from rfl,
      List.getElem?_set_ne (by omega)]
    exact h.seqs t' x hx

theorem refsOk_shape {es es' : List EntryObj} {D : ℕ} {rs : List ℕ} (h : RefsOk es D rs)
    (hs : ∀ (r : ℕ) (x : EntryObj), es[r]? = some x → ∃ x' : EntryObj, es'[r]? = some x' ∧
      x'.toVal.applyTo = x.toVal.applyTo ∧ x'.toVal.getDimension = x.toVal.getDimension) : RefsOk es' D rs := by
  intro r hr
  obtain ⟨x, hx, hf⟩ := h r hr
  obtain ⟨x', hx', h1, h2⟩ := hs r x hx
  exact ⟨x', hx', fitsDim_congr h1 h2 hf⟩

theorem Ext.invertNew {τ : Arith} {w w' w'' : World} (h : Ext τ w w') {rs : List ℕ}
    {res : Except PyErr Unit} (hnew : ∀ r ∈ rs, w.entries.length ≤ r) (hi : InvertPost τ rs w' res w'') :
    Ext τ w w'' where
  wf := by
    refine ⟨hi.entriesOk, fun o ho => ?_⟩
    have : o ∈ w'.seqs := by rw [hi.eq] at ho; exact ho
    exact ⟨refsOk_shape (h.wf.seqs o this).entries hi.shape,
      fun ps hps => refsOk_shape ((h.wf.seqs o this).prev ps hps) hi.shape⟩
  grow r x hx := by
    have hlt := (List.getElem?_eq_some_iff.mp hx).1
    obtain ⟨x', h1, h2⟩ := h.grow r x hx
    exact ⟨x', by rw [hi.other r fun hr => absurd (hnew r hr) (by omega)]; exact h1, h2⟩
  betas := by rw [hi.eq]; exact h.betas
  rng := by rw [hi.eq]; exact h.rng
  seqs := by rw [hi.eq]; exact h.seqs

/-! ## `inverse` -/

/-- What the `product` call inside an operation returned. -/
def IsProductOf (τ : Arith) (w : World) (o : SeqObj) (p : Unitary) : Prop :=
  (∀ q, o.product = some q → p = q) ∧
  (o.product = none → freshProduct τ o.dimension (valsOf w.entries o.entries) = .ok p)

/-- Outcome of `inverse`. -/
structure InversePost (τ : Arith) (w : World) (s : ℕ) (o : SeqObj) (res : Except PyErr ℕ) (w' : World) : Prop where
  ext : Ext τ w w'
  array : o.isArray = true → res = .error .attributeError
  ok : ∀ t, res = .ok t → t = w.seqs.length ∧ o.isArray = false ∧ ∃ p p' f,
    w'.seqs[t]? = some ⟨o.dimension, false, (o.entries.map f).reverse, some p', none, none⟩ ∧
    IsProductOf τ w o p ∧ p.inverse τ = .ok p' ∧
    (∀ a ∈ o.entries, ∀ b ∈ o.entries, f a = f b → a = b) ∧
    (∀ a ∈ o.entries, w.entries.length ≤ f a) ∧
    (∀ (r : ℕ) (x : EntryObj), r ∈ o.entries → w.entries[r]? = some x → ∃ x' : EntryObj,
      w'.entries[f r]? = some x' ∧ InvN τ (o.entries.count r) x.toVal x'.toVal)
  exact : ∀ n, Exact0 τ n w o → o.isArray = false → ∃ t, res = .ok t
  exactEs : τ = 0 → ExactEs w.entries → ExactEs w'.entries
  coh : ∀ P, τ = 0 → ExactEs w.entries → Coh P w → (∀ t, P t → t < w.seqs.length) → Coh P w'

theorem count_map_inj {f : ℕ → ℕ} {l : List ℕ} (hf : ∀ a ∈ l, ∀ b ∈ l, f a = f b → a = b) {a : ℕ} (ha : a ∈ l) :
    (l.map f).count (f a) = l.count a := by
  rw [List.count, List.countP_map, List.count]
  apply List.countP_congr
  intro x hx
  simp only [Function.comp, beq_iff_eq]
  exact ⟨fun h => hf x hx a ha h, fun h => by rw [h]⟩

theorem inverse_wp {τ : Arith} {w : World} {s : ℕ} {o : SeqObj} (hw : w.WF τ) (hs : w.seqs[s]? = some o) :
    Wp (Seq.inverse τ s) (InversePost τ w s o) w := by
  have hso := hw.seq hs
  have hslt := (List.getElem?_eq_some_iff.mp hs).1
  unfold Seq.inverse
  refine Wp.getSeq_bind hs (Wp.bind ((getSequenceEntries_wp hw hs).mono ?_))
  rintro _ w1 ⟨rs1, rfl, ext1, hseq1, cop1⟩
  refine Wp.bind ((new_wp ext1.wf cop1.lt).mono ?_)
  rintro res2 w2 ⟨-, hnew⟩
  obtain ⟨rs2, rfl, ext2, hseq2, cop2⟩ := hnew (cop1.refs hso.entries)
  have ext12 := ext1.trans ext2
  rw [hseq1] at hseq2
  have hinv : w2.seqs[w1.seqs.length]? = some ⟨o.dimension, o.isArray, rs2, none, none, none⟩ := by
    rw [hseq2, hseq1, List.getElem?_append_right (le_refl _)]; simp
  have hent12 : ExactEs w.entries → ExactEs w2.entries := fun h => cop2.nonew.forall (cop1.nonew.forall h)
  have hget : ∀ t, t < w.seqs.length → w2.seqs[t]? = w.seqs[t]? := fun t ht => by
    rw [hseq2, List.getElem?_append_left ht]
  have hcoh12 : ∀ P, Coh P w → (∀ t, P t → t < w.seqs.length) → Coh P w2 := by
    intro P hc hP t x ht hx n hn
    rw [hget t (hP t ht)] at hx
    exact (hc t x ht hx n hn).grow (hw.seq hx) ext12.grow
  simp only
  refine Wp.getSeq_bind hinv ?_
  unfold Seq.requireList
  refine Wp.lift_bind (fun _ ha => ?_) fun err ha => ?_
  swap
  · have harr : o.isArray = true := by
      by_contra h
      rw [raiseUnless_of (by simpa using h)] at ha; cases ha
    have herr : err = .attributeError := by
      rw [raiseUnless_of_not (by simp [harr])] at ha; cases ha; rfl
    subst herr
    exact ⟨ext12, fun _ => rfl, fun t h => (by cases h), fun n _ h => (by rw [harr] at h; cases h),
      fun _ h => hent12 h, fun P _ _ hc hP => hcoh12 P hc hP⟩
  have harr : o.isArray = false := raiseUnless_eq_ok.mp ha
  have narr : ¬ o.isArray = true := by simp [harr]
  refine Wp.setSeq_bind ?_
  rw [hseq1] at *
  simp only [harr]
  -- the copied references as one map
  obtain ⟨f1, hf1, hinj1, hv1⟩ := cop1.count
  obtain ⟨f2, hf2, hinj2, hv2⟩ := cop2.count
  set f : ℕ → ℕ := f2 ∘ f1 with hf
  have hrs2 : rs2 = o.entries.map f := by rw [hf2, hf1, List.map_map]
  have hmem1 : ∀ a ∈ o.entries, f1 a ∈ rs1 := fun a ha => by rw [hf1]; exact List.mem_map_of_mem ha
  have hinj : ∀ a ∈ o.entries, ∀ b ∈ o.entries, f a = f b → a = b := fun a ha b hb h =>
    hinj1 a ha b hb (hinj2 _ (hmem1 a ha) _ (hmem1 b hb) h)
  have hfresh : ∀ r ∈ rs2, w.entries.length ≤ r := fun r hr => by
    have h1 := cop2.fresh r hr
    have h2 : w.entries.length ≤ w1.entries.length := by
      by_contra hlt
      push Not at hlt
      obtain ⟨x', hx', -⟩ := ext1.grow w1.entries.length _ (List.getElem?_eq_getElem hlt)
      simp at hx'
    omega
  have hval : ∀ (r : ℕ) (x : EntryObj), r ∈ o.entries → w.entries[r]? = some x → ∃ x2 : EntryObj,
      w2.entries[f r]? = some x2 ∧ x2.toVal = x.toVal := by
    intro r x hr hx
    have h1 := hv1 r hr
    rw [hx] at h1
    have h2 := hv2 _ (hmem1 r hr)
    rw [h1] at h2
    obtain ⟨x2, h3, h4⟩ := Option.map_eq_some_iff.mp h2
    exact ⟨x2, h3, h4⟩
  have hrefs2 : RefsOk w2.entries o.dimension rs2 := cop2.refs (cop1.refs hso.entries)
  -- the object with the reversed list
  set w3 : World := { w2 with seqs := w2.seqs.set w.seqs.length ⟨o.dimension, false, rs2.reverse, none, none, none⟩ }
    with hw3
  have hrev : RefsOk w2.entries o.dimension rs2.reverse := fun r hr => hrefs2 r (List.mem_reverse.mp hr)
  have ext3 : Ext τ w w3 := ext12.setNew (le_refl _) ⟨hrev, fun _ h => (by cases h)⟩
  have hget3 : ∀ t, t < w.seqs.length → w3.seqs[t]? = w.seqs[t]? := fun t ht => by
    rw [show w3.seqs = w2.seqs.set w.seqs.length _ from rfl, List.getElem?_set_ne (by omega), hget t ht]
  have hlen3 : w3.seqs.length = w.seqs.length + 1 := by
    rw [show w3.seqs = w2.seqs.set w.seqs.length _ from rfl, List.length_set, hseq2]; simp
  refine Wp.bind ((invertEntries_wp rs2.reverse w3 ext3.wf.entries
    (fun r hr => cop2.lt r (List.mem_reverse.mp hr))).mono ?_)
  intro res4 w4 hi
  have ext4 : Ext τ w w4 := ext3.invertNew (fun r hr => hfresh r (List.mem_reverse.mp hr)) hi
  have hseq4 : w4.seqs = w3.seqs := by rw [hi.eq]
  have hget4 : ∀ t, t < w.seqs.length → w4.seqs[t]? = w.seqs[t]? := fun t ht => by rw [hseq4, hget3 t ht]
  have hcoh4 : ∀ P, Coh P w → (∀ t, P t → t < w.seqs.length) → Coh P w4 := by
    intro P hc hP t x ht hx n hn
    rw [hget4 t (hP t ht)] at hx
    exact (hc t x ht hx n hn).grow (hw.seq hx) ext4.grow
  rcases res4 with err | _
  · simp only
    exact ⟨ext4, fun h => absurd h narr, fun t h => (by cases h),
      fun n hx _ => absurd (hi.exact hx.tau (hent12 hx.es)).1 (by simp),
      fun hτ h => (hi.exact hτ (hent12 h)).2, fun P _ _ hc hP => hcoh4 P hc hP⟩
  simp only
  have hs4 : w4.seqs[s]? = some o := by rw [hget4 s hslt, hs]
  refine Wp.bind ((product_wp ext4.wf hs4).mono ?_)
  rintro res5 w5 ⟨o5, hp⟩
  have ext5 : Ext τ w w5 := ext4.trans (hp.step.ext ext4.wf hs4 hp.same)
  have hvals4 : valsOf w4.entries o.entries = valsOf w.entries o.entries := hso.entries.vals_grow ext4.grow
  have hent5 : τ = 0 → ExactEs w.entries → ExactEs w5.entries := fun hτ h =>
    hp.step.exact (hi.exact hτ (hent12 h)).2
  have hx4 : ∀ n, Exact0 τ n w o → Exact0 τ n w4 o := fun n hx =>
    ⟨hx.tau, hx.dim, (hi.exact hx.tau (hent12 hx.es)).2, hx.prod.grow hso ext4.grow⟩
  have hcoh5 : ∀ P, τ = 0 → ExactEs w.entries → Coh P w → (∀ t, P t → t < w.seqs.length) → Coh P w5 := by
    intro P hτ he hc hP
    refine hp.step.coh ext4.wf hs4 (hcoh4 P hc hP) fun hPs n hn => ?_
    obtain ⟨p, -, -, -, h⟩ := hp.exact n (hx4 n ⟨hτ, hp.same.dim ▸ hn, he, hc s o hPs hs n (hp.same.dim ▸ hn)⟩)
    exact h
  rcases res5 with err | p
  · simp only
    refine ⟨ext5, fun h => absurd h narr, fun t h => (by cases h), fun n hx _ => ?_, hent5, hcoh5⟩
    obtain ⟨p, h, -⟩ := hp.exact n (hx4 n hx); cases h
  simp only
  have hprod : IsProductOf τ w o p := by
    refine ⟨fun q hq => ?_, fun h => ?_⟩
    · have := (hp.cached q hq).1; cases this; rfl
    · rw [← hvals4]; exact (hp.fresh h).symm
  refine Wp.lift_bind (fun p' hp' => ?_) fun err herr => ?_
  · refine Wp.setSeq_bind (Wp.pure ?_)
    have hlen5 : w5.seqs.length = w.seqs.length + 1 := by
      rw [hp.step.seqs, List.length_set, hseq4, hlen3]
    have hrev5 : RefsOk w5.entries o.dimension rs2.reverse :=
      (refsOk_shape hrev hi.shape).grow hp.step.grow
    refine ⟨ext5.setNew (le_refl _) ⟨hrev5, fun _ h => (by cases h)⟩, fun h => absurd h narr, ?_,
      fun n _ _ => ⟨_, rfl⟩, hent5, ?_⟩
    · intro t ht
      cases ht
      refine ⟨rfl, harr, p, p', f, ?_, hprod, hp', hinj, ?_, ?_⟩
      · rw [show ({ w5 with seqs := w5.seqs.set w.seqs.length _ } : World).seqs = w5.seqs.set w.seqs.length _ from rfl,
          List.getElem?_set_self (by omega), hrs2]
      · intro a ha
        exact hfresh _ (by rw [hrs2]; exact List.mem_map_of_mem ha)
      · intro r x hr hx
        obtain ⟨x2, h1, h2⟩ := hval r x hr hx
        obtain ⟨x4, h3, h4⟩ := hi.ok rfl (f r) x2 h1
        obtain ⟨x5, h5, h6⟩ := hp.step.grow (f r) x4 h3
        refine ⟨x5, h5, ?_⟩
        rw [h6, ← h2, ← count_map_inj hinj hr, ← hrs2, ← List.count_reverse]
        exact h4
    · intro P hτ he hc hP t x ht hx n hn
      have htlt := hP t ht
      rw [show ({ w5 with seqs := w5.seqs.set w.seqs.length _ } : World).seqs = w5.seqs.set w.seqs.length _ from rfl,
        List.getElem?_set_ne (by omega)] at hx
      exact hcoh5 P hτ he hc hP t x ht hx n hn
  · refine ⟨ext5, fun h => absurd h narr, fun t h => (by cases h), fun n hx _ => ?_, hent5, hcoh5⟩
    obtain ⟨q, h1, h2, -⟩ := hp.exact n (hx4 n hx)
    cases h1
    have hτ := hx.tau; subst hτ
    rw [Unitary.inverse_eq h2] at herr; cases herr

end Stoq
