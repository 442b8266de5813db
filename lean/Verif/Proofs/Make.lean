import Verif.Proofs.Verification

/-! # Functions that make a sequence from new entries -/

namespace Stoq

open World Matrix

variable {G : EntryVal → Prop}

theorem MkOk.nil : MkOk G (pure []) (pure []) := fun _ =>
  Wp.pure ⟨⟨[], by simp, by simp⟩, ⟨[], rfl, by simp, rfl, by simp⟩⟩

theorem MkOk.raise (e : PyErr) : MkOk G (PyM.raise e) (PyM.raise e) := fun w =>
  Wp.of_eq (r := .error e) (w' := w) rfl ⟨⟨[], by simp, by simp⟩, rfl⟩

theorem MkOk.lift {α : Type} {x : Except PyErr α} {mk : α → PyM World (List ℕ)} {f : α → PyM Rng (List EntryVal)}
    (h : ∀ a, x = .ok a → MkOk G (mk a) (f a)) : MkOk G (PyM.lift x >>= mk) (PyM.lift x >>= f) := by
  rcases x with e | a
  · exact MkOk.raise e
  · exact h a rfl

theorem MkOk.withRng {α : Type} {x : PyM Rng α} {mk : α → PyM World (List ℕ)} {f : α → PyM Rng (List EntryVal)}
    (h : ∀ a r r', x r = (.ok a, r') → MkOk G (mk a) (f a)) : MkOk G (World.withRng x >>= mk) (x >>= f) := by
  intro w
  rcases hx : x w.rng with ⟨e | a, r⟩
  · have h1 : World.withRng x w = (.error e, { w with rng := r }) := by
      unfold World.withRng PyM.zoom; rw [hx]
    have h2 : (x >>= f) w.rng = (.error e, r) := PyM.bind_of_error hx
    exact Wp.bind_error h1 ⟨⟨[], by rw [h2]; simp, by simp⟩, by rw [h2]⟩
  · have h1 : World.withRng x w = (.ok a, { w with rng := r }) := by
      unfold World.withRng PyM.zoom; rw [hx]
    have h2 : (x >>= f) w.rng = f a r := PyM.bind_of_ok hx
    refine Wp.bind_ok h1 ((h a _ _ hx { w with rng := r }).mono ?_)
    rintro res w' ⟨⟨l, rfl, hl⟩, hres⟩
    refine ⟨⟨l, by rw [h2], hl⟩, ?_⟩
    rw [h2]
    exact hres

theorem MkOk.append {m1 m2 : PyM World (List ℕ)} {f1 f2 : PyM Rng (List EntryVal)} (h1 : MkOk G m1 f1)
    (h2 : MkOk G m2 f2) :
    MkOk G (do let a ← m1; let b ← m2; return a ++ b) (do let a ← f1; let b ← f2; return a ++ b) := by
  intro w
  refine Wp.bind ((h1 w).mono ?_)
  rintro res w1 ⟨⟨l1, rfl, hl1⟩, hres1⟩
  rcases hm : f1 w.rng with ⟨e | vs, r1⟩
  · have hf : (do let a ← f1; let b ← f2; return a ++ b : PyM Rng (List EntryVal)) w.rng = (.error e, r1) := by
      rw [PyM.bind_of_error hm]
    rw [hm] at hres1
    simp only at hres1
    subst hres1
    exact ⟨⟨l1, by rw [hf], hl1⟩, by rw [hf]⟩
  · rw [hm] at hres1
    obtain ⟨rs, rfl, hr1, hr2, hr3⟩ := hres1
    simp only at hr1 hr2 ⊢
    refine Wp.bind ((h2 _).mono ?_)
    rintro res w2 ⟨⟨l2, rfl, hl2⟩, hres2⟩
    simp only at hres2 ⊢
    have hall : ∀ x ∈ l1 ++ l2, x.toVal.WF ∧ x.cache = [] ∧ G x.toVal := by
      intro x hx
      rcases List.mem_append.mp hx with hx | hx
      · exact hl1 x hx
      · exact hl2 x hx
    rcases hm2 : f2 r1 with ⟨e | vs2, r2⟩
    · have hf : (do let a ← f1; let b ← f2; return a ++ b : PyM Rng (List EntryVal)) w.rng = (.error e, r2) := by
        rw [PyM.bind_of_ok hm, PyM.bind_of_error hm2]
      rw [hm2] at hres2
      simp only at hres2
      subst hres2
      exact ⟨⟨l1 ++ l2, by rw [hf]; simp, hall⟩, by rw [hf]⟩
    · have hf : (do let a ← f1; let b ← f2; return a ++ b : PyM Rng (List EntryVal)) w.rng =
          (.ok (vs ++ vs2), r2) := by
        rw [PyM.bind_of_ok hm, PyM.bind_of_ok hm2]; rfl
      rw [hm2] at hres2
      obtain ⟨rs2, rfl, hq1, hq2, hq3⟩ := hres2
      refine Wp.pure ⟨⟨l1 ++ l2, by rw [hf]; simp, hall⟩, ?_⟩
      rw [hf]
      refine ⟨_, rfl, ?_, ?_, ?_⟩
      · intro r hr
        rcases List.mem_append.mp hr with hr | hr
        · have := hr1 r hr
          simp at this ⊢; omega
        · exact hq1 r hr
      · rw [valsOf_append, hq2]
        simp only
        rw [valsOf_grow hr1 (.append _ _), hr2]
      · intro v hv
        rcases List.mem_append.mp hv with hv | hv
        · exact hr3 v hv
        · exact hq3 v hv

theorem MkOk.new {u : Unitary} {a : List ℤ} (hG : ∀ v, EntryVal.new u a = .ok v → v.WF ∧ G v) :
    MkOk G (do let e ← Entry.new u a; return [e]) (do let v ← PyM.lift (EntryVal.new u a); return [v]) := by
  intro w
  unfold Entry.new
  rcases hx : EntryVal.new u a with e | v
  · exact Wp.of_eq (r := .error e) (w' := w) rfl ⟨⟨[], by simp; rfl, by simp⟩, rfl⟩
  · refine Wp.of_eq (r := .ok [w.entries.length]) (w' := { w with entries := w.entries ++ [⟨v, []⟩] }) rfl
      ⟨⟨[⟨v, []⟩], rfl, ?_⟩, ⟨_, rfl, by simp, ?_, ?_⟩⟩
    · intro x hx'
      obtain rfl := List.mem_singleton.mp hx'
      exact ⟨(hG v hx).1, rfl, (hG v hx).2⟩
    · rw [valsOf_cons (o := ⟨v, []⟩) (by simp)]; rfl
    · intro x hx'
      obtain rfl := List.mem_singleton.mp hx'
      exact (hG x hx).2

theorem MkOk.cons {u : Unitary} {a : List ℤ} (hG : ∀ v, EntryVal.new u a = .ok v → v.WF ∧ G v)
    {mk : PyM World (List ℕ)} {f : PyM Rng (List EntryVal)} (h : MkOk G mk f) :
    MkOk G (do let e ← Entry.new u a; let es ← mk; return e :: es)
      (do let v ← PyM.lift (EntryVal.new u a); let vs ← f; return v :: vs) := by
  have := (MkOk.new hG).append h
  simpa only [PyM.bind_assoc', PyM.pure_bind', List.singleton_append] using this

/-- Outcome of making entries and then a sequence from them. -/
structure BuildPost (τ : Arith) (G : EntryVal → Prop) (fresh : PyM Rng (List EntryVal)) (D : ℕ) (w : World)
    (res : Except PyErr ℕ) (w' : World) : Prop where
  safe : Safe τ w w'
  error : ∀ e, (fresh w.rng).1 = .error e → res = .error e
  rng : w'.rng = (fresh w.rng).2
  ok : ∀ s, res = .ok s → s = w.seqs.length ∧ ∃ vs rs, (fresh w.rng).1 = .ok vs ∧ (∀ v ∈ vs, v.WF ∧ G v) ∧
    w'.seqs[s]? = some ⟨D, false, rs, none, none, none⟩ ∧ valsOf w'.entries rs = vs
  fits : ∀ n vs, D = 2 ^ n → (fresh w.rng).1 = .ok vs → (∀ v ∈ vs, v.Fits n) → res = .ok w.seqs.length
  exact : ∀ P : EntryVal → Prop, (∀ x ∈ w.entries, P x.toVal) → (∀ v, G v → P v) → ∀ x ∈ w'.entries, P x.toVal

theorem BuildPost.new {τ : Arith} {fresh : PyM Rng (List EntryVal)} {D : ℕ} {w w' : World} {res : Except PyErr ℕ}
    (h : BuildPost τ G fresh D w res w') {s : ℕ} (hs : res = .ok s) :
    w.seqs.length ≤ s ∧ ∃ o, w'.seqs[s]? = some o := by
  obtain ⟨rfl, -, rs, -, -, h1, -⟩ := h.ok s hs
  exact ⟨le_rfl, _, h1⟩

theorem build_wp {τ : Arith} {mk : PyM World (List ℕ)} {fresh : PyM Rng (List EntryVal)} (hmk : MkOk G mk fresh)
    (D : ℕ) {w : World} (hw : w.WF τ) :
    Wp (do let es ← mk; Seq.new D false es) (BuildPost τ G fresh D w) w := by
  refine Wp.bind ((hmk w).mono ?_)
  rintro res w1 ⟨⟨l, rfl, hl⟩, hres⟩
  have hw1 := addEntries_wf hw hl (fresh w.rng).2
  have hsafe1 : Safe τ w { w with entries := w.entries ++ l, rng := (fresh w.rng).2 } :=
    ⟨hw1, .append _ _, fun _ o ho => ⟨o, ho, .refl o⟩, List.prefix_rfl⟩
  have hP1 : ∀ P : EntryVal → Prop, (∀ x ∈ w.entries, P x.toVal) → (∀ v, G v → P v) →
      ∀ x ∈ w.entries ++ l, P x.toVal := by
    intro P h1 h2 x hx
    rcases List.mem_append.mp hx with hx | hx
    · exact h1 x hx
    · exact h2 _ (hl x hx).2.2
  rcases hf : (fresh w.rng).1 with e | vs
  · rw [hf] at hres
    simp only at hres
    subst hres
    exact ⟨hsafe1, fun e' h => by rw [hf] at h; rw [Except.error.inj h], rfl, fun s h => (by cases h),
      fun n vs _ h => (by rw [hf] at h; cases h), hP1⟩
  · rw [hf] at hres
    obtain ⟨rs, rfl, hr1, hr2, hr3⟩ := hres
    simp only at hr1 hr2 ⊢
    refine (new_wp hw1 hr1).mono ?_
    rintro res w2 ⟨hno, hyes⟩
    by_cases hok : RefsOk (w.entries ++ l) D rs
    · obtain ⟨rs', rfl, hext, hseqs, hcop⟩ := hyes hok
      refine ⟨hsafe1.trans hext.safe, fun e h => (by rw [hf] at h; cases h), hext.rng, fun s h => ?_,
        fun _ _ _ _ _ => rfl, fun P h1 h2 => hcop.nonew.forall (P := P) (hP1 P h1 h2)⟩
      cases h
      refine ⟨rfl, vs, rs', hf, fun v hv => ⟨?_, hr3 v hv⟩, ?_, ?_⟩
      · rw [← hr2] at hv
        obtain ⟨r, -, o, ho, rfl⟩ := mem_valsOf.mp hv
        exact (hw1.entries o (List.mem_of_getElem? ho)).wf
      · rw [hseqs]; simp
      · rw [hcop.vals, hr2]
    · obtain ⟨rfl, rfl⟩ := hno hok
      refine ⟨hsafe1, fun e h => (by rw [hf] at h; cases h), rfl, fun s h => (by cases h),
        fun n vs' hD h hfit => absurd ?_ hok, hP1⟩
      rw [hf] at h; cases h
      intro r hr
      have hlt := hr1 r hr
      refine ⟨_, List.getElem?_eq_getElem hlt, ?_⟩
      have hx := hw1.entries _ (List.getElem_mem hlt)
      rw [hD]
      refine hx.wf.fitsDim (hfit _ ?_)
      rw [← hr2]
      exact mem_valsOf.mpr ⟨r, hr, _, List.getElem?_eq_getElem hlt, rfl⟩

end Stoq
