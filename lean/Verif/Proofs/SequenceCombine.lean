import Verif.Proofs.SequenceInverse

/-! `combine`. -/

namespace Stoq

open World Matrix

theorem Copied.grow_len {τ : Arith} {w w' : World} (h : Ext τ w w') : w.entries.length ≤ w'.entries.length := by
  by_contra hlt
  push Not at hlt
  obtain ⟨x', hx', -⟩ := h.grow w'.entries.length _ (List.getElem?_eq_getElem hlt)
  simp at hx'

/-- The concatenated values of the sequences `ss`. -/
def flatVals (w : World) (ss : List ℕ) : List EntryVal :=
  (ss.map fun s => match w.seqs[s]? with | some o => valsOf w.entries o.entries | none => []).flatten

/-- All of `ss` are sequences of dimension `D`. -/
def SeqsOk (w : World) (D : ℕ) (ss : List ℕ) : Prop := ∀ s ∈ ss, ∃ o, w.seqs[s]? = some o ∧ o.dimension = D

theorem SeqsOk.ext {τ : Arith} {w w' : World} (h : Ext τ w w') {D : ℕ} {ss : List ℕ} (hs : SeqsOk w D ss) :
    SeqsOk w' D ss := by
  intro s hm
  obtain ⟨o, h1, h2⟩ := hs s hm
  obtain ⟨o', h3, h4⟩ := h.seqs s o h1
  exact ⟨o', h3, h4.dim.trans h2⟩

theorem flatVals_ext {τ : Arith} {w w' : World} (hw : w.WF τ) (h : Ext τ w w') {D : ℕ} {ss : List ℕ}
    (hs : SeqsOk w D ss) : flatVals w' ss = flatVals w ss := by
  unfold flatVals
  congr 1
  apply List.map_congr_left
  intro s hm
  obtain ⟨o, h1, h2⟩ := hs s hm
  obtain ⟨o', h3, h4⟩ := h.seqs s o h1
  simp only [h1, h3, h4.entries]
  exact (hw.seq h1).entries.vals_grow h.grow

theorem flatVals_cons {w : World} {s : ℕ} {o : SeqObj} (h : w.seqs[s]? = some o) (ss : List ℕ) :
    flatVals w (s :: ss) = valsOf w.entries o.entries ++ flatVals w ss := by
  simp [flatVals, h]

/-- Every sequence in `ss` holds pairwise different entry objects. -/
def NodupSeqs (w : World) (ss : List ℕ) : Prop := ∀ s ∈ ss, ∀ o, w.seqs[s]? = some o → o.entries.Nodup

theorem NodupSeqs.ext {τ : Arith} {w w' : World} (h : Ext τ w w') {D : ℕ} {ss : List ℕ} (hs : SeqsOk w D ss)
    (hn : NodupSeqs w ss) : NodupSeqs w' ss := by
  intro s hm o' ho'
  obtain ⟨o, h1, -⟩ := hs s hm
  obtain ⟨o1, h3, h4⟩ := h.seqs s o h1
  rw [h3] at ho'; cases ho'
  rw [h4.entries]; exact hn s hm o h1

/-- Outcome of the loop of `combine`. -/
structure CombineLoopPost (τ : Arith) (w : World) (D : ℕ) (ss es : List ℕ) (p : Unitary)
    (res : Except PyErr (List ℕ × Unitary)) (w' : World) : Prop where
  ext : Ext τ w w'
  nonew : NoNew w.entries w'.entries
  len : w'.seqs.length = w.seqs.length
  ok : ∀ es' p', res = .ok (es', p') → ∃ new, es' = es ++ new ∧ valsOf w'.entries new = flatVals w ss ∧
    RefsOk w'.entries D new ∧ (∀ r ∈ new, w.entries.length ≤ r) ∧ (NodupSeqs w ss → new.Nodup)
  exact : ∀ P n, τ = 0 → ExactEs w.entries → Coh P w → (∀ s ∈ ss, P s) → D = 2 ^ n → p.Exact (2 ^ n) →
    ∃ es' p', res = .ok (es', p') ∧ p'.Exact (2 ^ n) ∧
      p'.matrix.toMatrix (2 ^ n) = circuit n (flatVals w ss) * p.matrix.toMatrix (2 ^ n)
  coh : ∀ P, τ = 0 → ExactEs w.entries → Coh P w → Coh P w'

theorem Ext.coh_of_seqs {τ : Arith} {w w' : World} (hw : w.WF τ) (h : Ext τ w w') (hseq : w'.seqs = w.seqs)
    {P : ℕ → Prop} (hc : Coh P w) : Coh P w' := by
  intro t x ht hx n hn
  rw [hseq] at hx
  exact (hc t x ht hx n hn).grow (hw.seq hx) h.grow

theorem combineLoop_wp {τ : Arith} {D : ℕ} (ss es : List ℕ) (p : Unitary) (w : World) (hw : w.WF τ)
    (hss : SeqsOk w D ss) : Wp (Seq.combineLoop τ ss es p) (CombineLoopPost τ w D ss es p) w := by
  induction ss generalizing es p w with
  | nil =>
    unfold Seq.combineLoop
    refine Wp.pure ⟨.refl hw, .refl _, rfl, ?_, ?_, fun _ _ _ h => h⟩
    · intro es' p' h
      cases h
      exact ⟨[], by simp, rfl, fun r hr => by simp at hr, by simp, fun _ => List.nodup_nil⟩
    · intro P n _ _ _ _ _ hp
      exact ⟨es, p, rfl, hp, by simp [flatVals, circuit]⟩
  | cons s ss ih =>
    unfold Seq.combineLoop
    obtain ⟨o, hs, hdim⟩ := hss s (by simp)
    have hss' : SeqsOk w D ss := fun x hx => hss x (by simp [hx])
    have hso := hw.seq hs
    refine Wp.bind ((getSequenceEntries_wp hw hs).mono ?_)
    rintro _ w1 ⟨rs1, rfl, ext1, hseq1, cop1⟩
    have hs1 : w1.seqs[s]? = some o := by rw [hseq1]; exact hs
    simp only
    refine Wp.bind ((product_wp ext1.wf hs1).mono ?_)
    rintro res2 w2 ⟨o2, hp⟩
    have ext12 := hp.step.ext ext1.wf hs1 hp.same
    have ext2 : Ext τ w w2 := ext1.trans ext12
    have hlen2 : w2.seqs.length = w.seqs.length := by rw [hp.step.seqs, List.length_set, hseq1]
    have hvals1 : valsOf w1.entries o.entries = valsOf w.entries o.entries := hso.entries.vals_grow ext1.grow
    have hx1 : ∀ P n, τ = 0 → ExactEs w.entries → Coh P w → P s → o.dimension = 2 ^ n → Exact0 τ n w1 o := by
      intro P n hτ he hc hP hn
      exact ⟨hτ, hn, cop1.nonew.forall he, (hc s o hP hs n hn).grow hso ext1.grow⟩
    have hcoh2 : ∀ P, τ = 0 → ExactEs w.entries → Coh P w → Coh P w2 := by
      intro P hτ he hc
      refine hp.step.coh ext1.wf hs1 (ext1.coh_of_seqs hw hseq1 hc) fun hPs n hn => ?_
      obtain ⟨p, -, -, -, h⟩ := hp.exact n (hx1 P n hτ he hc hPs (hp.same.dim ▸ hn))
      exact h
    have hnn2 : NoNew w.entries w2.entries := cop1.nonew.trans hp.step.nonew
    rcases res2 with err | q
    · simp only
      refine ⟨ext2, hnn2, hlen2, fun _ _ h => (by cases h), ?_, hcoh2⟩
      intro P n hτ he hc hP hD _
      obtain ⟨p, h, -⟩ := hp.exact n (hx1 P n hτ he hc (hP s (by simp)) (hdim.trans hD))
      cases h
    simp only
    refine Wp.lift_bind (fun p' hp' => ?_) fun err herr => ?_
    · refine (ih (es ++ rs1) p' w2 ext2.wf (hss'.ext ext2)).mono ?_
      intro res w' h
      refine ⟨ext2.trans h.ext, hnn2.trans h.nonew, h.len.trans hlen2, ?_, ?_, ?_⟩
      · intro es' q' hr
        obtain ⟨new, h1, h2, h3, h4, h5⟩ := h.ok es' q' hr
        have hrs1lt : ∀ r ∈ rs1, r < w2.entries.length := fun r hr =>
          lt_of_lt_of_le (cop1.lt r hr) (Copied.grow_len ext12)
        have hrs1 : RefsOk w'.entries D rs1 := by
          have := cop1.refs hso.entries
          rw [hdim] at this
          exact (this.grow ext12.grow).grow h.ext.grow
        refine ⟨rs1 ++ new, by rw [h1, List.append_assoc], ?_, ?_, ?_, ?_⟩
        · rw [valsOf_append, h2, flatVals_cons hs, flatVals_ext hw ext2 hss', valsOf_grow hrs1lt h.ext.grow,
            valsOf_grow cop1.lt ext12.grow, cop1.vals]
        · intro r hr
          rcases List.mem_append.mp hr with hr | hr
          · exact hrs1 r hr
          · exact h3 r hr
        · intro r hr
          rcases List.mem_append.mp hr with hr | hr
          · exact cop1.fresh r hr
          · exact le_trans (Copied.grow_len ext2) (h4 r hr)
        · intro hn
          rw [List.nodup_append]
          refine ⟨cop1.nodup (hn s (by simp) o hs), h5 (NodupSeqs.ext ext2 hss' fun x hx => hn x (by simp [hx])), ?_⟩
          intro a ha b hb hab
          have := hrs1lt a ha
          have := h4 b hb
          omega
      · intro P n hτ he hc hP hD hpe
        obtain ⟨q', h1, h2, h3, -⟩ := hp.exact n (hx1 P n hτ he hc (hP s (by simp)) (hdim.trans hD))
        cases h1
        subst hτ
        obtain ⟨r, hr1, hr2, hr3⟩ := leftMultiply_exact hpe h2
        rw [hr1] at hp'; cases hp'
        obtain ⟨es', q'', h4, h5, h6⟩ := h.exact P n rfl (hnn2.forall he) (hcoh2 P rfl he hc)
          (fun x hx => hP x (by simp [hx])) hD hr2
        refine ⟨es', q'', h4, h5, ?_⟩
        rw [h6, hr3, h3, flatVals_ext hw ext2 hss', flatVals_cons hs, circuit_append, hvals1, Matrix.mul_assoc]
      · intro P hτ he hc
        exact h.coh P hτ (hnn2.forall he) (hcoh2 P hτ he hc)
    · refine ⟨ext2, hnn2, hlen2, fun _ _ h => (by cases h), ?_, hcoh2⟩
      intro P n hτ he hc hP hD hpe
      obtain ⟨q', h1, h2, h3, -⟩ := hp.exact n (hx1 P n hτ he hc (hP s (by simp)) (hdim.trans hD))
      cases h1
      subst hτ
      obtain ⟨r, hr1, -⟩ := leftMultiply_exact hpe h2
      rw [hr1] at herr; cases herr

noncomputable def dimCheck (D : ℕ) (s : ℕ) : PyM World Unit := do PyM.assert ((← Seq.getDimension s) = D)

theorem forM_dims {w : World} {D : ℕ} {ss : List ℕ} (hss : ∀ s ∈ ss, ∃ o, w.seqs[s]? = some o) :
    (SeqsOk w D ss → ss.forM (dimCheck D) w = (.ok (), w)) ∧
    (¬ SeqsOk w D ss → ss.forM (dimCheck D) w = (.error .assertion, w)) := by
  induction ss with
  | nil => exact ⟨fun _ => rfl, fun h => absurd (fun r hr => by simp at hr) h⟩
  | cons s ss ih =>
    obtain ⟨ih1, ih2⟩ := ih fun x hx => hss x (by simp [hx])
    obtain ⟨o, ho⟩ := hss s (by simp)
    have hcons : SeqsOk w D (s :: ss) ↔ o.dimension = D ∧ SeqsOk w D ss := by
      constructor
      · intro h
        refine ⟨?_, fun x hx => h x (by simp [hx])⟩
        obtain ⟨o', ho', hf⟩ := h s (by simp)
        rw [ho] at ho'; cases ho'; exact hf
      · rintro ⟨h1, h2⟩ x hx
        rcases List.mem_cons.mp hx with rfl | hx
        · exact ⟨_, ho, h1⟩
        · exact h2 x hx
    have hdim : Seq.getDimension s w = (.ok o.dimension, w) := by
      unfold Seq.getDimension
      rw [PyM.bind_of_ok (getSeq_some ho)]; rfl
    have hunf : (s :: ss).forM (dimCheck D) =
        (dimCheck D s >>= fun _ =>
          ss.forM (dimCheck D) : PyM World PUnit) := rfl
    rw [hcons, hunf]
    constructor
    · rintro ⟨h1, h2⟩
      rw [PyM.bind_of_ok (s' := w) (a := ())]
      · exact ih1 h2
      · unfold dimCheck; rw [PyM.bind_of_ok hdim, PyM.assert_of h1]
    · intro h
      by_cases h1 : o.dimension = D
      · rw [PyM.bind_of_ok (s' := w) (a := ())]
        · exact ih2 fun h2 => h ⟨h1, h2⟩
        · unfold dimCheck; rw [PyM.bind_of_ok hdim, PyM.assert_of h1]
      · rw [PyM.bind_of_error (s' := w) (e := .assertion)]
        unfold dimCheck; rw [PyM.bind_of_ok hdim, PyM.assert_of_not h1]

/-- Outcome of `combine` on sequences of equal dimension. -/
structure CombinePost (τ : Arith) (w : World) (D : ℕ) (ss : List ℕ)
    (res : Except PyErr ℕ) (w' : World) : Prop where
  ext : Ext τ w w'
  nonew : NoNew w.entries w'.entries
  ok : ∀ t, res = .ok t → t = w.seqs.length ∧ ∃ rs p,
    w'.seqs[t]? = some ⟨D, false, rs, some p, none, none⟩ ∧ valsOf w'.entries rs = flatVals w ss ∧
    (∀ r ∈ rs, w.entries.length ≤ r) ∧ (NodupSeqs w ss → rs.Nodup)
  exact : ∀ P n, τ = 0 → ExactEs w.entries → Coh P w → (∀ s ∈ ss, P s) → D = 2 ^ n →
    ∃ t rs p, res = .ok t ∧ w'.seqs[t]? = some ⟨D, false, rs, some p, none, none⟩ ∧ p.Exact (2 ^ n) ∧
      p.matrix.toMatrix (2 ^ n) = circuit n (flatVals w ss)
  coh : ∀ P, τ = 0 → ExactEs w.entries → Coh P w → (∀ t, P t → t < w.seqs.length) → Coh P w'

theorem combine_wp {τ : Arith} {w : World} {ss : List ℕ} (hw : w.WF τ)
    (hss : ∀ s ∈ ss, ∃ o, w.seqs[s]? = some o) :
    Wp (Seq.combine τ ss) (fun res w' =>
      ((∀ D, ss = [] ∨ ¬ SeqsOk w D ss) → res = .error .assertion ∧ w' = w) ∧
      (∀ D, ss ≠ [] → SeqsOk w D ss → CombinePost τ w D ss res w')) w := by
  unfold Seq.combine
  rcases ss with _ | ⟨s0, ss0⟩
  · exact ⟨fun _ => ⟨rfl, rfl⟩, fun _ h => absurd rfl h⟩
  simp only
  obtain ⟨o0, ho0⟩ := hss s0 (by simp)
  have hdim0 : Seq.getDimension s0 w = (.ok o0.dimension, w) := by
    unfold Seq.getDimension
    rw [PyM.bind_of_ok (getSeq_some ho0)]; rfl
  refine Wp.bind_ok hdim0 ?_
  generalize hall : s0 :: ss0 = ss at *
  have hne : ss ≠ [] := by rw [← hall]; simp
  obtain ⟨hd1, hd2⟩ := forM_dims (D := o0.dimension) hss
  by_cases hD : SeqsOk w o0.dimension ss
  swap
  · refine Wp.bind_error (hd2 hD) ⟨fun _ => ⟨rfl, rfl⟩, fun D _ h => ?_⟩
    obtain ⟨o, h1, h2⟩ := h s0 (by rw [← hall]; simp)
    rw [ho0] at h1; cases h1
    rw [h2] at hD; exact absurd h hD
  refine Wp.bind_ok (hd1 hD) ?_
  have hDuniq : ∀ D, SeqsOk w D ss → D = o0.dimension := by
    intro D h
    obtain ⟨o, h1, h2⟩ := h s0 (by rw [← hall]; simp)
    rw [ho0] at h1; cases h1
    exact h2.symm
  suffices h : Wp (PyM.lift (Unitary.identity τ o0.dimension) >>= fun p0 =>
      Seq.combineLoop τ ss [] p0 >>= fun x => Seq.new o0.dimension false x.1 >>= fun res =>
      getSeq res >>= fun r => setSeq res { r with product := some x.2 } >>= fun _ => pure res)
      (CombinePost τ w o0.dimension ss) w by
    refine Wp.mono h ?_
    intro res w' h
    exact ⟨fun h' => by rcases h' o0.dimension with h' | h'; exact absurd h' hne; exact absurd hD h',
      fun D _ hDs => by rw [hDuniq D hDs]; exact h⟩
  refine Wp.lift_bind (fun p0 hp0 => ?_) fun err herr => ?_
  · refine Wp.bind ((combineLoop_wp ss [] p0 w hw hD).mono ?_)
    intro res1 w1 h1
    have hp0x : ∀ n, τ = 0 → o0.dimension = 2 ^ n → p0.Exact (2 ^ n) ∧ p0.matrix.toMatrix (2 ^ n) = 1 := by
      intro n hτ hn
      subst hτ
      rw [hn, Unitary.identity_eq (by positivity)] at hp0
      cases hp0
      exact ⟨⟨by positivity, rfl, rfl, by rw [Arr.toMatrix_identity]; exact one_mem _⟩, Arr.toMatrix_identity⟩
    rcases res1 with err | ⟨es, p⟩
    · simp only
      refine ⟨h1.ext, h1.nonew, fun t h => (by cases h), ?_, fun P hτ he hc _ => h1.coh P hτ he hc⟩
      intro P n hτ he hc hP hn
      obtain ⟨_, _, h, -⟩ := h1.exact P n hτ he hc hP hn (hp0x n hτ hn).1
      cases h
    · simp only
      obtain ⟨new, rfl, hvals, hrefs, hfresh, hnodup⟩ := h1.ok es p rfl
      refine Wp.bind ((new_wp h1.ext.wf hrefs.lt).mono ?_)
      rintro res2 w2 ⟨-, hnew⟩
      obtain ⟨rs2, rfl, ext2, hseq2, cop2⟩ := hnew hrefs
      have hinv : w2.seqs[w1.seqs.length]? = some ⟨o0.dimension, false, rs2, none, none, none⟩ := by
        rw [hseq2, List.getElem?_append_right (le_refl _)]; simp
      simp only
      refine Wp.getSeq_bind hinv (Wp.setSeq_bind (Wp.pure ?_))
      rw [h1.len] at *
      have hlen2 : w.seqs.length < w2.seqs.length := by rw [hseq2]; simp [h1.len]
      have hobj : ({ w2 with seqs := (w2.seqs.set w.seqs.length
          ⟨o0.dimension, false, rs2, some p, none, none⟩) } : World).seqs[w.seqs.length]? =
          some ⟨o0.dimension, false, rs2, some p, none, none⟩ := List.getElem?_set_self hlen2
      have hcount := cop2.count
      refine ⟨(h1.ext.trans ext2).setNew (le_refl _) ⟨cop2.refs hrefs, fun _ h => (by cases h)⟩,
        h1.nonew.trans cop2.nonew, ?_, ?_, ?_⟩
      · intro t ht
        cases ht
        refine ⟨rfl, rs2, p, hobj, ?_, ?_, fun hn => cop2.nodup (hnodup hn)⟩
        · exact cop2.vals.trans hvals
        · intro r hr
          exact le_trans (Copied.grow_len h1.ext) (cop2.fresh r hr)
      · intro P n hτ he hc hP hn
        obtain ⟨es', p', h, h3, h4⟩ := h1.exact P n hτ he hc hP hn (hp0x n hτ hn).1
        simp only [Except.ok.injEq, Prod.mk.injEq] at h
        obtain ⟨-, rfl⟩ := h
        exact ⟨_, rs2, p, rfl, hobj, h3, by rw [h4, (hp0x n hτ hn).2, Matrix.mul_one]⟩
      · intro P hτ he hc hP t x ht hx n hn
        have htlt := hP t ht
        rw [show ({ w2 with seqs := w2.seqs.set w.seqs.length _ } : World).seqs =
          w2.seqs.set w.seqs.length _ from rfl, List.getElem?_set_ne (by omega), hseq2,
          List.getElem?_append_left (by rw [h1.len]; omega)] at hx
        exact (h1.coh P hτ he hc t x ht hx n hn).grow (h1.ext.wf.seq hx) ext2.grow
  · refine ⟨.refl hw, .refl _, fun t h => (by cases h), ?_, fun P _ _ hc _ => hc⟩
    intro P n hτ he hc hP hn
    subst hτ
    rw [hn, Unitary.identity_eq (by positivity)] at herr; cases herr

end Stoq
