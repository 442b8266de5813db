import Verif.Proofs.Proposal

/-! # The compilation loop -/

namespace Stoq

open World Compiler

/-- On the heap, `change` makes the proposal `prop`. -/
def Refines (τ : Arith) (G : EntryVal → Prop) (change : ℕ → PyM World Unit)
    (prop : List EntryVal → PyM Rng (List EntryVal)) : Prop :=
  ∀ (w : World) (s : ℕ) (o : SeqObj), w.WF τ → w.seqs[s]? = some o → o.isArray = false →
    Wp (change s) (fun res w' => ∃ o', ChangePost τ G prop w s o res w' o') w

theorem getBeta_some {w : World} {c : ℕ} {b : ℝ} (h : w.betas[c]? = some b) : getBeta c w = (.ok b, w) := by
  simp [getBeta, h]

theorem getBeta_none {w : World} {c : ℕ} (h : w.betas[c]? = none) : getBeta c w = (.error .dangling, w) := by
  simp [getBeta, h]

theorem acceptProposedChange_eq {C : Compiler} {w : World} {b : ℝ} (h : w.betas[C.self]? = some b) (c p : ℝ) :
    acceptProposedChange C c p w =
      (.ok (open Classical in decide ((w.rng.unif w.rng.upos : ℝ) < acceptanceProbability b c p)),
        { w with rng := { w.rng with upos := w.rng.upos + 1 } }) := by
  unfold acceptProposedChange
  rw [PyM.bind_of_ok (getBeta_some h)]
  rfl

theorem acceptanceProbability_self (b c : ℝ) : acceptanceProbability b c c = 1 := by
  simp [acceptanceProbability]

/-- One change of the inverse temperature. -/
noncomputable def Metropolis.heat (rate cap x : ℝ) : ℝ := min (x + rate) cap

/-- Outcome of one iteration. -/
structure StepPost (τ : Arith) (G : EntryVal → Prop) (prop : List EntryVal → PyM Rng (List EntryVal))
    (C : Compiler) (target : Unitary) (w : World) (s : ℕ) (o : SeqObj) (res : Except PyErr ℝ) (w' : World)
    (o' : SeqObj) : Prop where
  wf : w'.WF τ
  only : Only s w w'
  get : w'.seqs[s]? = some o'
  dim : o'.dimension = o.dimension
  arr : o'.isArray = false
  betaLen : w'.betas.length = w.betas.length
  betaOther : ∀ c, c ≠ C.self → w'.betas[c]? = w.betas[c]?
  beta : ∀ b, w.betas[C.self]? = some b → ∃ k, w'.betas[C.self]? =
    some ((Metropolis.heat C.annealingRate C.maxBeta)^[k] b)
  ok : ∀ c, res = .ok c → ∃ b new r, w.betas[C.self]? = some b ∧
    w'.betas = w.betas.set C.self (min (b + C.annealingRate) C.maxBeta) ∧
    prop (valsOf w.entries o.entries) w.rng = (.ok new, r) ∧ w'.rng = { r with upos := r.upos + 1 } ∧
    (valsOf w'.entries o'.entries = valsOf w.entries o.entries ∨ valsOf w'.entries o'.entries = new)
  exact : ∀ n b, Exact0 τ n w o → (∀ v, G v → v.Fits n ∧ v.Exact) → target.Exact (2 ^ n) →
    w.betas[C.self]? = some b →
    match Metropolis.step n (target.matrix.toMatrix (2 ^ n)) C.annealingRate C.maxBeta prop
        ⟨valsOf w.entries o.entries, b⟩ w.rng with
    | (.error e, r) => res = .error e ∧ w'.rng = r
    | (.ok st, r) => res = .ok (Metropolis.cost n (target.matrix.toMatrix (2 ^ n)) st.gates) ∧ w'.rng = r ∧
        valsOf w'.entries o'.entries = st.gates ∧ w'.betas = w.betas.set C.self st.beta ∧ Exact0 τ n w' o'

theorem compileStep_wp {τ : Arith} {G : EntryVal → Prop} {change : ℕ → PyM World Unit}
    {prop : List EntryVal → PyM Rng (List EntryVal)} (hch : Refines τ G change prop) {C : Compiler}
    {target : Unitary} {w : World} {s : ℕ} {o : SeqObj} (hw : w.WF τ) (hs : w.seqs[s]? = some o)
    (ha : o.isArray = false) :
    Wp (compileStep τ C change target s) (fun res w' => ∃ o', StepPost τ G prop C target w s o res w' o') w := by
  unfold compileStep
  rcases hb : w.betas[C.self]? with _ | b
  · refine Wp.bind_error (getBeta_none hb) ⟨o, hw, .refl _ _, hs, rfl, ha, rfl, fun _ _ => rfl,
      fun b h => (by rw [hb] at h; cases h), fun c h => (by cases h), fun n b _ _ _ h => (by rw [hb] at h; cases h)⟩
  refine Wp.bind_ok (getBeta_some hb) ?_
  set beta := min (b + C.annealingRate) C.maxBeta with hbeta
  refine Wp.bind_ok (a := ()) (w' := { w with betas := w.betas.set C.self beta }) rfl ?_
  generalize hw0 : ({ w with betas := w.betas.set C.self beta } : World) = w0
  have hw0' : w0.WF τ := by subst hw0; exact ⟨hw.entries, hw.seqs⟩
  have hs0 : w0.seqs[s]? = some o := by subst hw0; exact hs
  have hbl0 : w0.betas.length = w.betas.length := by subst hw0; simp
  have hbo0 : ∀ c, c ≠ C.self → w0.betas[c]? = w.betas[c]? := by
    intro c hc; subst hw0; exact List.getElem?_set_ne (Ne.symm hc)
  have hb0 : w0.betas[C.self]? = some beta := by
    subst hw0; simp [(List.getElem?_eq_some_iff.mp hb).1]
  have hbs0 : w0.betas = w.betas.set C.self beta := by subst hw0; rfl
  have hent0 : w0.entries = w.entries := by subst hw0; rfl
  have hrng0 : w0.rng = w.rng := by subst hw0; rfl
  have only0 : Only s w w0 := by subst hw0; exact ⟨.refl _, rfl, fun _ _ => rfl⟩
  have ex0 : ∀ n, Exact0 τ n w o → Exact0 τ n w0 o := by
    intro n hx; exact ⟨hx.tau, hx.dim, by rw [hent0]; exact hx.es, by rw [hent0]; exact hx.prod⟩
  clear hw0
  generalize hgates : valsOf w.entries o.entries = gates
  have hgates0 : valsOf w0.entries o.entries = gates := by rw [hent0]; exact hgates
  have mkpost : ∀ (res : Except PyErr ℝ) (w' : World) (o' : SeqObj), w'.WF τ → Only s w w' →
      w'.seqs[s]? = some o' → o'.dimension = o.dimension → o'.isArray = false → w'.betas = w0.betas →
      (∀ c, res = .ok c → ∃ new r, prop gates w.rng = (.ok new, r) ∧ w'.rng = { r with upos := r.upos + 1 } ∧
        (valsOf w'.entries o'.entries = gates ∨ valsOf w'.entries o'.entries = new)) →
      (∀ n, Exact0 τ n w o → (∀ v, G v → v.Fits n ∧ v.Exact) → target.Exact (2 ^ n) →
        match Metropolis.step n (target.matrix.toMatrix (2 ^ n)) C.annealingRate C.maxBeta prop
            ⟨gates, b⟩ w.rng with
        | (.error e, r) => res = .error e ∧ w'.rng = r
        | (.ok st, r) => res = .ok (Metropolis.cost n (target.matrix.toMatrix (2 ^ n)) st.gates) ∧ w'.rng = r ∧
            valsOf w'.entries o'.entries = st.gates ∧ st.beta = beta ∧ Exact0 τ n w' o') →
      StepPost τ G prop C target w s o res w' o' := by
    intro res w' o' h1 h2 h3 h4 h5 h6 h7 h8
    refine ⟨h1, h2, h3, h4, h5, by rw [h6, hbl0], fun c hc => by rw [h6, hbo0 c hc],
      fun b' hb' => ⟨1, by rw [hb] at hb'; cases hb'; rw [h6]; exact hb0⟩, fun c hc => ?_,
      fun n b' hx hG ht hb' => ?_⟩
    · obtain ⟨new, r, h9, h10, h11⟩ := h7 c hc
      exact ⟨b, new, r, hb, by rw [h6, hbs0], by rw [hgates]; exact h9, h10, by rw [hgates]; exact h11⟩
    · rw [hb] at hb'; cases hb'
      have := h8 n hx hG ht
      rw [hgates]
      revert this
      rcases Metropolis.step n (target.matrix.toMatrix (2 ^ n)) C.annealingRate C.maxBeta prop
            ⟨gates, b⟩ w.rng with ⟨e | st, r⟩
      · rintro ⟨g1, g2⟩
        exact ⟨g1, g2⟩
      · rintro ⟨g1, g2, g3, g4, g5⟩
        exact ⟨g1, g2, g3, by rw [h6, hbs0, g4], g5⟩
  clear hbs0 hbo0 hbl0
  -- the product before
  refine Wp.bind ((product_wp hw0' hs0).mono ?_)
  rintro res w1 ⟨o1, hp1⟩
  have hw1 := hp1.step.wf hw0'
  have hs1 := hp1.step.get hs0
  have ha1 : o1.isArray = false := hp1.step.arr.trans ha
  have only1 := only0.trans hp1.step.only
  rcases res with err | p1
  · refine ⟨o1, mkpost _ w1 o1 hw1 only1 hs1 hp1.step.dim ha1 hp1.step.betas (fun c h => (by cases h))
      fun n hx _ _ => ?_⟩
    obtain ⟨p, h, -⟩ := hp1.exact n (ex0 n hx); cases h
  simp only
  have hg1 : valsOf w1.entries o1.entries = gates := by
    rw [hp1.same.entries, (hw0'.seq hs0).entries.vals_grow hp1.step.grow]; exact hgates0
  have ex1 : ∀ n, Exact0 τ n w o → Exact0 τ n w1 o1 ∧ p1.Exact (2 ^ n) ∧
      p1.matrix.toMatrix (2 ^ n) = circuit n gates := by
    intro n hx
    obtain ⟨p, h, h2, h3, h4⟩ := hp1.exact n (ex0 n hx); cases h
    exact ⟨(ex0 n hx).step hp1.step h4, h2, by rw [h3, hgates0]⟩
  have hst1 : o1.product = some p1 := hp1.stored p1 rfl
  have hrng1 : w1.rng = w.rng := hp1.step.rng.trans hrng0
  -- the change
  refine Wp.bind ((hch w1 s o1 hw1 hs1 ha1).mono ?_)
  rintro res w2 ⟨o2, hc⟩
  have only2 := only1.trans hc.only
  have hb2 : w2.betas = w0.betas := hc.betas.trans hp1.step.betas
  have hd2 : o2.dimension = o.dimension := hc.dim.trans hp1.step.dim
  rcases res with err | u
  · refine ⟨o2, mkpost _ w2 o2 hc.wf only2 hc.get hd2 hc.arr hb2 (fun c h => (by cases h)) fun n hx hG ht => ?_⟩
    have := hc.exact n (ex1 n hx).1 hG
    rw [hg1, hrng1] at this
    unfold Metropolis.step
    rcases hpr : prop gates w.rng with ⟨e | new, r⟩
    · rw [hpr] at this
      rw [PyM.bind_of_error hpr]; exact ⟨by rw [Except.error.inj this.1], this.2⟩
    · rw [hpr] at this; cases this.1
  simp only
  obtain ⟨new, hnew, hvnew, hundo⟩ := hc.ok rfl
  rw [hg1, hrng1] at hnew
  rw [hg1] at hundo
  have ex2 : ∀ n, Exact0 τ n w o → (∀ v, G v → v.Fits n ∧ v.Exact) → Exact0 τ n w2 o2 := by
    intro n hx hG
    have := hc.exact n (ex1 n hx).1 hG
    rw [hg1, hrng1, hnew] at this
    exact this.2
  -- the current cost
  refine Wp.lift_bind (fun cur hcur => ?_) fun e he => ?_
  swap
  · refine ⟨o2, mkpost _ w2 o2 hc.wf only2 hc.get hd2 hc.arr hb2 (fun c h => (by cases h)) fun n hx hG ht => ?_⟩
    obtain ⟨-, h2, -⟩ := ex1 n hx
    have hτ := hx.tau; subst hτ
    rw [Unitary.distanceFrom_eq ht h2] at he; cases he
  have hcost1 : ∀ n, Exact0 τ n w o → target.Exact (2 ^ n) →
      cur = Metropolis.cost n (target.matrix.toMatrix (2 ^ n)) gates := by
    intro n hx ht
    obtain ⟨-, h2, h3⟩ := ex1 n hx
    have hτ := hx.tau; subst hτ
    rw [Unitary.distanceFrom_eq ht h2, h3] at hcur
    exact (Except.ok.inj hcur).symm
  -- the product after
  refine Wp.bind ((product_wp hc.wf hc.get).mono ?_)
  rintro res w3 ⟨o3, hp3⟩
  have hw3 := hp3.step.wf hc.wf
  have hs3 := hp3.step.get hc.get
  have ha3 : o3.isArray = false := hp3.step.arr.trans hc.arr
  have only3 := only2.trans hp3.step.only
  have hb3 : w3.betas = w0.betas := hp3.step.betas.trans hb2
  have hd3 : o3.dimension = o.dimension := hp3.step.dim.trans hd2
  rcases res with err | p3
  · refine ⟨o3, mkpost _ w3 o3 hw3 only3 hs3 hd3 ha3 hb3 (fun c h => (by cases h)) fun n hx hG ht => ?_⟩
    obtain ⟨p, h, -⟩ := hp3.exact n (ex2 n hx hG); cases h
  simp only
  have hv3 : valsOf w3.entries o3.entries = new := by
    rw [hp3.same.entries, (hc.wf.seq hc.get).entries.vals_grow hp3.step.grow]; exact hvnew
  have ex3 : ∀ n, Exact0 τ n w o → (∀ v, G v → v.Fits n ∧ v.Exact) → Exact0 τ n w3 o3 ∧ p3.Exact (2 ^ n) ∧
      p3.matrix.toMatrix (2 ^ n) = circuit n new := by
    intro n hx hG
    obtain ⟨p, h, h2, h3, h4⟩ := hp3.exact n (ex2 n hx hG); cases h
    exact ⟨(ex2 n hx hG).step hp3.step h4, h2, by rw [h3, hvnew]⟩
  -- the proposed cost
  refine Wp.lift_bind (fun prp hprp => ?_) fun e he => ?_
  swap
  · refine ⟨o3, mkpost _ w3 o3 hw3 only3 hs3 hd3 ha3 hb3 (fun c h => (by cases h)) fun n hx hG ht => ?_⟩
    obtain ⟨-, h2, -⟩ := ex3 n hx hG
    have hτ := hx.tau; subst hτ
    rw [Unitary.distanceFrom_eq ht h2] at he; cases he
  have hcost3 : ∀ n, Exact0 τ n w o → (∀ v, G v → v.Fits n ∧ v.Exact) → target.Exact (2 ^ n) →
      prp = Metropolis.cost n (target.matrix.toMatrix (2 ^ n)) new := by
    intro n hx hG ht
    obtain ⟨-, h2, h3⟩ := ex3 n hx hG
    have hτ := hx.tau; subst hτ
    rw [Unitary.distanceFrom_eq ht h2, h3] at hprp
    exact (Except.ok.inj hprp).symm
  -- the decision
  have hbeta3 : w3.betas[C.self]? = some beta := by rw [hb3]; exact hb0
  have hrng3 : w3.rng = w2.rng := hp3.step.rng
  refine Wp.bind_ok (acceptProposedChange_eq hbeta3 cur prp) ?_
  generalize hr4 : ({ w3.rng with upos := w3.rng.upos + 1 } : Rng) = r4
  have hr4' : r4 = { w2.rng with upos := w2.rng.upos + 1 } := by rw [← hr4, hrng3]
  rw [hrng3]
  -- what the walk does
  have hstep : ∀ n, Exact0 τ n w o → (∀ v, G v → v.Fits n ∧ v.Exact) → target.Exact (2 ^ n) →
      Metropolis.step n (target.matrix.toMatrix (2 ^ n)) C.annealingRate C.maxBeta prop ⟨gates, b⟩ w.rng =
        if (w2.rng.unif w2.rng.upos : ℝ) < acceptanceProbability beta cur prp then (.ok ⟨new, beta⟩, r4)
        else (.ok ⟨gates, beta⟩, r4) := by
    intro n hx hG ht
    unfold Metropolis.step
    simp only
    rw [PyM.bind_of_ok hnew, PyM.bind_of_ok (Rng.randomSample_eq w2.rng), ← hcost1 n hx ht,
      ← hcost3 n hx hG ht, hr4']
    unfold acceptanceProbability
    split_ifs <;> rfl
  by_cases hacc : (w2.rng.unif w2.rng.upos : ℝ) < acceptanceProbability beta cur prp
  · rw [if_pos (by simpa using hacc)]
    refine Wp.pure ⟨o3, mkpost _ { w3 with rng := r4 } o3 ⟨hw3.entries, hw3.seqs⟩ ?_ hs3 hd3 ha3 hb3 ?_ ?_⟩
    · exact only3.trans ⟨.refl _, rfl, fun _ _ => rfl⟩
    · intro c _
      exact ⟨new, w2.rng, hnew, hr4', .inr hv3⟩
    · intro n hx hG ht
      rw [hstep n hx hG ht, if_pos hacc]
      refine ⟨by rw [hcost3 n hx hG ht], rfl, hv3, rfl, ?_⟩
      obtain ⟨h1, -, -⟩ := ex3 n hx hG
      exact ⟨h1.tau, h1.dim, h1.es, h1.prod⟩
  · rw [if_neg (by simpa using hacc)]
    have hps : ∃ ps, o3.previousEntries = some ps ∧ valsOf w3.entries ps = gates := by
      rcases hundo with rfl | h
      · -- nothing was changed, so the costs agree and the proposal was accepted
        exfalso
        obtain ⟨h1, -⟩ := hp3.cached p1 hst1
        cases h1
        rw [hcur] at hprp
        cases hprp
        rw [acceptanceProbability_self] at hacc
        exact hacc (w2.rng.unif w2.rng.upos).2.2
      · rw [← hp3.same.prev] at h
        obtain ⟨ps, h2, h3⟩ := Option.map_eq_some_iff.mp h
        refine ⟨ps, h2, ?_⟩
        rw [← h3]
        exact ((hc.wf.seq hc.get).prev ps (by rw [← hp3.same.prev]; exact h2)).vals_grow hp3.step.grow
    obtain ⟨ps, hps1, hps2⟩ := hps
    have hw4 : ({ w3 with rng := r4 } : World).WF τ := ⟨hw3.entries, hw3.seqs⟩
    refine Wp.bind ((undo_wp hw4 hs3).mono ?_)
    rintro res w5 ⟨o5, hst5, -, hsome, hex5⟩
    obtain ⟨rfl, hent5, ho5⟩ := hsome ps hps1
    have hv5 : valsOf w5.entries o5.entries = gates := by
      rw [hent5, ho5]; exact hps2
    refine Wp.pure ⟨o5, mkpost _ w5 o5 (hst5.wf hw4) ?_ (hst5.get hs3) (hst5.dim.trans hd3)
      (hst5.arr.trans ha3) (hst5.betas.trans hb3) ?_ ?_⟩
    · exact (only3.trans (w'' := { w3 with rng := r4 }) ⟨.refl _, rfl, fun _ _ => rfl⟩).trans hst5.only
    · intro c _
      exact ⟨new, w2.rng, hnew, by rw [hst5.rng]; exact hr4', .inl hv5⟩
    · intro n hx hG ht
      rw [hstep n hx hG ht, if_neg hacc]
      refine ⟨by rw [hcost1 n hx ht], hst5.rng, hv5, rfl, ?_⟩
      obtain ⟨h1, -, -⟩ := ex3 n hx hG
      have h1' : Exact0 τ n { w3 with rng := r4 } o3 := ⟨h1.tau, h1.dim, h1.es, h1.prod⟩
      exact h1'.step hst5 (hex5 n h1')

end Stoq
