import Verif.Proofs.ObjectsVal
import Verif.Proofs.History
import Verif.Spec.Objects

/-! Numbering the entry objects: references and numbers correspond one to one. -/

namespace Stoq

open World Matrix

/-- A one-to-one correspondence between references in `[a0, a1)` and numbers in `[b0, b1)`. -/
structure Names (R : ℕ → ℕ → Prop) (a0 a1 b0 b1 : ℕ) : Prop where
  inj : ∀ a a' b, R a b → R a' b → a = a'
  fn : ∀ a b b', R a b → R a b' → b = b'
  range : ∀ a b, R a b → a0 ≤ a ∧ a < a1 ∧ b0 ≤ b ∧ b < b1

theorem Names.union {R S : ℕ → ℕ → Prop} {a0 a1 a2 b0 b1 b2 : ℕ} (h : Names R a0 a1 b0 b1) (h' : Names S a1 a2 b1 b2)
    (ha0 : a0 ≤ a1) (ha : a1 ≤ a2) (hb0 : b0 ≤ b1) (hb : b1 ≤ b2) :
    Names (fun a b => R a b ∨ S a b) a0 a2 b0 b2 where
  inj a a' b hab hab' := by
    rcases hab with h1 | h1 <;> rcases hab' with h2 | h2
    · exact h.inj _ _ _ h1 h2
    · have := h.range _ _ h1; have := h'.range _ _ h2; omega
    · have := h'.range _ _ h1; have := h.range _ _ h2; omega
    · exact h'.inj _ _ _ h1 h2
  fn a b b' hab hab' := by
    rcases hab with h1 | h1 <;> rcases hab' with h2 | h2
    · exact h.fn _ _ _ h1 h2
    · have := h.range _ _ h1; have := h'.range _ _ h2; omega
    · have := h'.range _ _ h1; have := h.range _ _ h2; omega
    · exact h'.fn _ _ _ h1 h2
  range a b hab := by
    rcases hab with h1 | h1
    · have := h.range _ _ h1; omega
    · have := h'.range _ _ h1; omega

theorem Names.mono {R : ℕ → ℕ → Prop} {a0 a1 b0 b1 a0' a1' b0' b1' : ℕ} (h : Names R a0 a1 b0 b1) (h1 : a0' ≤ a0)
    (h2 : a1 ≤ a1') (h3 : b0' ≤ b0) (h4 : b1 ≤ b1') : Names R a0' a1' b0' b1' where
  inj := h.inj
  fn := h.fn
  range a b hab := by have := h.range _ _ hab; omega

/-- The correspondence of copies. -/
def CopyNames (R : ℕ → ℕ → Prop) (rs : List ℕ) (f : ℕ → ℕ) (k : ℕ) (a b : ℕ) : Prop :=
  ∃ r i, r ∈ rs ∧ R r i ∧ a = f r ∧ b = i + k

theorem Names.copy {R : ℕ → ℕ → Prop} {a0 a1 b0 b1 a2 a3 : ℕ} (h : Names R a0 a1 b0 b1) {rs : List ℕ} {f : ℕ → ℕ}
    (hf : ∀ x ∈ rs, ∀ y ∈ rs, f x = f y → x = y) (hr : ∀ x ∈ rs, a2 ≤ f x ∧ f x < a3) (k : ℕ) :
    Names (CopyNames R rs f k) a2 a3 (b0 + k) (b1 + k) where
  inj := by
    rintro a a' b ⟨r, i, h1, h2, rfl, h3⟩ ⟨r', i', h1', h2', rfl, h3'⟩
    have : i = i' := by omega
    subst this
    rw [h.inj _ _ _ h2 h2']
  fn := by
    rintro a b b' ⟨r, i, h1, h2, h3, rfl⟩ ⟨r', i', h1', h2', h3', rfl⟩
    have := hf r h1 r' h1' (h3.symm.trans h3')
    subst this
    rw [h.fn _ _ _ h2 h2']
  range := by
    rintro a b ⟨r, i, h1, h2, rfl, rfl⟩
    have := h.range _ _ h2
    have := hr r h1
    omega

theorem forall₂_copy {R : ℕ → ℕ → Prop} {rs ids : List ℕ} (h : List.Forall₂ R rs ids) (f : ℕ → ℕ) (k : ℕ) :
    List.Forall₂ (CopyNames R rs f k) (rs.map f) (ids.map (· + k)) := by
  suffices ∀ l : List ℕ, (∀ r ∈ rs, r ∈ l) → List.Forall₂ (CopyNames R l f k) (rs.map f) (ids.map (· + k)) from
    this rs fun _ h => h
  intro l hl
  induction h with
  | nil => exact .nil
  | @cons r i rs ids hri _ ih =>
    exact .cons ⟨r, i, hl r (by simp), hri, rfl, rfl⟩ (ih fun x hx => hl x (by simp [hx]))

/-- The numbers of copies of several lists. -/
def shiftAll (m : ℕ) : ℕ → List (List ℕ) → List ℕ
  | _, [] => []
  | k, ids :: idss => ids.map (· + k) ++ shiftAll m (k + m) idss

theorem copies_fst (k : ℕ) (l : List Tagged) : (copies k l).map Prod.fst = (l.map Prod.fst).map (· + k) := by
  simp [copies, Function.comp_def]

theorem copies_snd (k : ℕ) (l : List Tagged) : (copies k l).map Prod.snd = l.map Prod.snd := by
  simp [copies, Function.comp_def]

theorem copyAll_fst (m k : ℕ) (vs : List ObjSeq) :
    (copyAll m k vs).map Prod.fst = shiftAll m k (vs.map fun v => v.entries.map Prod.fst) := by
  induction vs generalizing k with
  | nil => rfl
  | cons v vs ih => simp only [copyAll, List.map_append, copies_fst, ih, List.map_cons, shiftAll]

theorem copyAll_snd (m k : ℕ) (vs : List ObjSeq) :
    (copyAll m k vs).map Prod.snd = (vs.map fun v => v.entries.map Prod.snd).flatten := by
  induction vs generalizing k with
  | nil => rfl
  | cons v vs ih => simp only [copyAll, List.map_append, copies_snd, ih, List.map_cons, List.flatten_cons]

/-- The sequences hold the objects with these numbers. -/
def NamedSeqs (R : ℕ → ℕ → Prop) (w : World) (ss : List ℕ) (idss : List (List ℕ)) : Prop :=
  List.Forall₂ (fun s ids => ∃ o, w.seqs[s]? = some o ∧ List.Forall₂ R o.entries ids) ss idss

theorem NamedSeqs.ext {τ : Arith} {R : ℕ → ℕ → Prop} {w w' : World} {ss : List ℕ} {idss : List (List ℕ)}
    (h : NamedSeqs R w ss idss) (he : Ext τ w w') : NamedSeqs R w' ss idss := by
  refine List.Forall₂.imp ?_ h
  rintro s ids ⟨o, h1, h2⟩
  obtain ⟨o', h3, h4⟩ := he.seqs s o h1
  exact ⟨o', h3, h4.entries ▸ h2⟩

theorem combineLoop_names {τ : Arith} {R : ℕ → ℕ → Prop} {L m : ℕ} (hn : Names R 0 L 0 m) {ss : List ℕ}
    {idss : List (List ℕ)} (es : List ℕ) (p : Unitary) (k : ℕ) {w : World} (hw : w.WF τ) (h : NamedSeqs R w ss idss) :
    Wp (Seq.combineLoop τ ss es p) (fun res w' => ∀ es' p', res = .ok (es', p') → ∃ new S, es' = es ++ new ∧
      Names S w.entries.length w'.entries.length k (k + idss.length * m) ∧ w.entries.length ≤ w'.entries.length ∧
      List.Forall₂ S new (shiftAll m k idss)) w := by
  induction ss generalizing idss es p k w with
  | nil =>
    cases h
    refine Wp.pure ?_
    rintro es' p' h
    cases h
    exact ⟨[], fun _ _ => False, by simp, ⟨by simp, by simp, by simp⟩, le_rfl, .nil⟩
  | cons s ss ih =>
    cases h with
    | @cons _ ids _ idss h1 h2 =>
    obtain ⟨o, hs, hids⟩ := h1
    have h2 : NamedSeqs R w ss idss := h2
    unfold Seq.combineLoop
    refine Wp.bind ((getSequenceEntries_wp hw hs).mono ?_)
    rintro _ w1 ⟨rs1, rfl, ext1, hseq1, cop1⟩
    have hs1 : w1.seqs[s]? = some o := by rw [hseq1]; exact hs
    simp only
    refine Wp.bind ((product_wp ext1.wf hs1).mono ?_)
    rintro res2 w2 ⟨o2, hp⟩
    have ext12 := hp.step.ext ext1.wf hs1 hp.same
    have ext2 : Ext τ w w2 := ext1.trans ext12
    rcases res2 with err | q
    · intro es' p' h; cases h
    simp only
    refine Wp.lift_bind (fun p' hp' => ?_) fun err herr es' p' h => (by cases h)
    refine (ih (idss := idss) (es ++ rs1) p' (k + m) (ext2.wf) (h2.ext ext2)).mono ?_
    rintro res w' hres es' q' rfl
    obtain ⟨new, S, h3, h4, h5, h6⟩ := hres es' q' rfl
    have hle := Copied.grow_len ext2
    have hle12 := Copied.grow_len ext12
    obtain ⟨f, hf, hinj, -⟩ := cop1.count
    have hfr : ∀ x ∈ o.entries, w.entries.length ≤ f x ∧ f x < w2.entries.length := by
      intro x hx
      have hm : f x ∈ rs1 := by rw [hf]; exact List.mem_map.mpr ⟨x, hx, rfl⟩
      exact ⟨cop1.fresh _ hm, lt_of_lt_of_le (cop1.lt _ hm) hle12⟩
    have hcn := hn.copy hinj hfr k
    rw [Nat.zero_add, Nat.add_comm m k] at hcn
    refine ⟨rs1 ++ new, fun a b => CopyNames R o.entries f k a b ∨ S a b, by rw [h3, List.append_assoc], ?_,
      hle.trans h5, ?_⟩
    · have := hcn.union h4 hle h5 (by omega) (by omega)
      rw [List.length_cons, show k + (idss.length + 1) * m = k + m + idss.length * m by ring]
      exact this
    · rw [shiftAll]
      refine forall₂_append' ?_ (h6.imp fun _ _ h => .inr h)
      rw [hf]
      exact (forall₂_copy hids f k).imp fun _ _ h => .inl h

/-- The whole effect of `combine` on sequences of `n` qubits. -/
theorem combine_val {R : ℕ → ℕ → Prop} {L m n : ℕ} (hn : Names R 0 L 0 m) {ss : List ℕ} {idss : List (List ℕ)}
    {gss : List (List EntryVal)} (k : ℕ) {w : World} (hw : w.WF 0) (hx : ExactEs w.entries) (hne : ss ≠ [])
    (h : NamedSeqs R w ss idss) (hv : ValSeqs n w ss gss) :
    Wp (Seq.combine 0 ss) (fun res w' => res = .ok w.seqs.length ∧ Ext 0 w w' ∧ ValExt w w' ∧ ExactEs w'.entries ∧
      ∃ rs p S, w'.seqs[w.seqs.length]? = some ⟨2 ^ n, false, rs, some p, none, none⟩ ∧
        valsOf w'.entries rs = flatVals w ss ∧ p.Exact (2 ^ n) ∧
        p.matrix.toMatrix (2 ^ n) = circuit n gss.flatten ∧
        Names S w.entries.length w'.entries.length k (k + idss.length * m) ∧
        List.Forall₂ S rs (shiftAll m k idss)) w := by
  have hD := hv.seqsOk
  have hex : ∀ s ∈ ss, ∃ o, w.seqs[s]? = some o := fun s hs => by
    obtain ⟨o, h1, -⟩ := hD s hs; exact ⟨o, h1⟩
  have hpost := combine_wp hw hex
  suffices h2 : Wp (Seq.combine 0 ss) (fun res w' => ValExt w w' ∧ ∃ t rs p S, res = .ok t ∧
      w'.seqs[w.seqs.length]? = some ⟨2 ^ n, false, rs, some p, none, none⟩ ∧ p.Exact (2 ^ n) ∧
        p.matrix.toMatrix (2 ^ n) = circuit n gss.flatten ∧
        Names S w.entries.length w'.entries.length k (k + idss.length * m) ∧
        List.Forall₂ S rs (shiftAll m k idss)) w by
    refine (hpost.and h2).mono ?_
    rintro res w' ⟨⟨-, h3⟩, h4, t, rs, p, S, rfl, h5, h6, h7, h8, h9⟩
    have h10 := h3 (2 ^ n) hne hD
    obtain ⟨rfl, rs', p', h11, h12, -, -⟩ := h10.ok t rfl
    rw [h5] at h11; cases h11
    exact ⟨rfl, h10.ext, h4, h10.nonew.forall hx, rs, p, S, h5, h12, h6, h7, h8, h9⟩
  unfold Seq.combine
  rcases ss with _ | ⟨s0, ss0⟩
  · exact absurd rfl hne
  simp only
  obtain ⟨o0, ho0, hd0⟩ := hD s0 (by simp)
  have hdim0 : Seq.getDimension s0 w = (.ok o0.dimension, w) := by
    unfold Seq.getDimension
    rw [PyM.bind_of_ok (getSeq_some ho0)]; rfl
  refine Wp.bind_ok hdim0 ?_
  generalize hall : s0 :: ss0 = ss at *
  rw [hd0]
  refine Wp.bind_ok ((forM_dims hex).1 hD) ?_
  rw [Unitary.identity_eq (show 0 < 2 ^ n by positivity)]
  refine Wp.bind_ok (show PyM.lift (Except.ok _) w = (.ok _, w) from rfl) ?_
  refine Wp.bind ((((combineLoop_wp ss [] _ w hw hD).and (combineLoop_val (n := n) [] _ hw hx hv
    ⟨by positivity, rfl, rfl, by rw [Arr.toMatrix_identity]; exact one_mem _⟩ Arr.toMatrix_identity)).and
    (combineLoop_names hn [] _ k hw h)).mono ?_)
  rintro res1 w1 ⟨⟨h1, h2, es, p, rfl, h3, h4⟩, h5⟩
  obtain ⟨new, S, hnew1, h6, h7, h8⟩ := h5 _ _ rfl
  obtain ⟨new', hnew', hvals, hrefs, hfresh, -⟩ := h1.ok _ _ rfl
  rw [List.nil_append] at hnew1 hnew'
  subst hnew1
  subst hnew'
  simp only
  refine Wp.bind ((new_wp h1.ext.wf hrefs.lt).mono ?_)
  rintro res2 w2 ⟨-, hnew⟩
  obtain ⟨rs2, rfl, ext2, hseq2, cop2⟩ := hnew hrefs
  have hinv : w2.seqs[w1.seqs.length]? = some ⟨2 ^ n, false, rs2, none, none, none⟩ := by
    rw [hseq2, List.getElem?_append_right (le_refl _)]; simp
  simp only
  refine Wp.getSeq_bind hinv (Wp.setSeq_bind (Wp.pure ?_))
  rw [h1.len] at *
  have hlen2 : w.seqs.length < w2.seqs.length := by rw [hseq2]; simp [h1.len]
  have hv2 : ValExt w1 w2 := .of_prefix h1.ext.wf ext2.grow fun t ht => by rw [hseq2, List.getElem?_append_left ht]
  obtain ⟨f, hf, hinj, -⟩ := cop2.count
  have hfr : ∀ x ∈ es, w.entries.length ≤ f x ∧ f x < w2.entries.length := by
    intro x hx
    have hm : f x ∈ rs2 := by rw [hf]; exact List.mem_map.mpr ⟨x, hx, rfl⟩
    exact ⟨h7.trans (cop2.fresh _ hm), cop2.lt _ hm⟩
  refine ⟨(h2.trans hv2).setNew (le_refl _) _, w.seqs.length, rs2, p, CopyNames S es f 0, rfl,
    List.getElem?_set_self hlen2, h3, by rw [h4, Matrix.mul_one], h6.copy hinj hfr 0, ?_⟩
  rw [hf]
  simpa using forall₂_copy h8 f 0

end Stoq
