import Verif.Proofs.DriftInverse

/-! Programs that edit sequences compute the ideal result up to the drift. -/

namespace Stoq

open World Matrix
open scoped Matrix.Norms.L2Operator

theorem Budget.dim {n m k : ℕ} {τ : Arith} {δ ε : ℝ} (h : Budget n τ δ ε k) (hm : m ≤ n) :
    Budget m τ δ ε k ∧ driftErr m δ ε k ≤ driftErr n δ ε k := by
  have h1 : (2 : ℝ) ^ m ≤ 2 ^ n := pow_le_pow_right₀ (by norm_num) hm
  have h2 : driftErr m δ ε k ≤ driftErr n δ ε k := by
    unfold driftErr stepErr
    have := h.t0; have := h.eps
    gcongr
  exact ⟨⟨h.tau.mono (Nat.pow_le_pow_right (by norm_num) hm), h.tau1, h.eps, h2.trans h.lim⟩, h2⟩

/-- Some system has the qubits of the gate. -/
def EntryVal.Good (v : EntryVal) : Prop := ∃ m, v.gate.Ok m

theorem EntryVal.Good.ok {v : EntryVal} (h : v.Good) {m : ℕ} (hf : Plain.fits (2 ^ m) v) : v.gate.Ok m := by
  obtain ⟨m', h'⟩ := h
  exact ⟨h'.nodup, h'.nonempty, fits_iff.mp hf, h'.unitary⟩

theorem EntryVal.Good.fits {v : EntryVal} {m : ℕ} (h : v.gate.Ok m) : Plain.fits (2 ^ m) v := fits_iff.mpr h.fits

theorem fitsDim_iff_near {e v : EntryVal} {ε : ℝ} (h : e.Realises v.gate ε) (hg : v.Good) {m : ℕ} :
    FitsDim e (2 ^ m) ↔ Plain.fits (2 ^ m) v := by
  obtain ⟨m', h'⟩ := hg
  rw [← fits_iff' (h.wf h')]
  unfold Plain.fits
  rw [h.1]; rfl

theorem gateProduct_gates {m : ℕ} (l : List EntryVal) : gateProduct m (l.map EntryVal.gate) = circuit m l := by
  induction l with
  | nil => rfl
  | cons e l ih => rw [List.map_cons, gateProduct, ih]; rfl

/-- The reference denotes an entry close to `v`. -/
def EntryNear (ε : ℝ) (es : List EntryObj) (r : ℕ) (v : EntryVal) : Prop :=
  (∃ o : EntryObj, es[r]? = some o ∧ o.toVal.Realises v.gate ε) ∧ v.Good

/-- The reference denotes a sequence close to `v`. -/
structure SeqNear (n : ℕ) (δ ε : ℝ) (k : ℕ) (w : World) (v : SeqView) (o : SeqObj) (m : ℕ) : Prop where
  le : m ≤ n
  dim : v.dimension = 2 ^ m
  arr : v.isArray = o.isArray
  ok : DriftOk m δ ε k w.entries o (v.entries.map EntryVal.gate) (v.undo.map (List.map EntryVal.gate))

theorem forall₂_mem_left {α β : Type} {Q : α → β → Prop} {l : List α} {l' : List β} (h : List.Forall₂ Q l l') {a : α} (ha : a ∈ l) :
    ∃ b ∈ l', Q a b := by
  induction h with
  | nil => cases ha
  | @cons x y l l' hxy _ ih =>
    rcases List.mem_cons.mp ha with rfl | ha
    · exact ⟨y, by simp, hxy⟩
    · obtain ⟨b, hb, hq⟩ := ih ha
      exact ⟨b, by simp [hb], hq⟩

/-- The client's objects represent the plain lists up to the drift. -/
structure RelNear (n : ℕ) (τ : Arith) (δ ε : ℝ) (k : ℕ) (c : Client) (p : Plain) : Prop where
  wf : c.world.WF τ
  ents : List.Forall₂ (EntryNear ε c.world.entries) c.entries p.entries
  seqs : List.Forall₂ (fun r v => ∃ o m, c.world.seqs[r]? = some o ∧ SeqNear n δ ε k c.world v o m) c.seqs p.seqs
  nodup : c.seqs.Nodup

section

variable {n k k' : ℕ} {τ : Arith} {δ ε : ℝ} {c : Client} {p : Plain}

theorem EntryNear.grow {es es' : List EntryObj} {r : ℕ} {v : EntryVal} (h : EntryNear ε es r v) (hg : Grow es es') :
    EntryNear ε es' r v := by
  obtain ⟨⟨o, h1, h2⟩, h3⟩ := h
  obtain ⟨o', h4, h5⟩ := hg r o h1
  exact ⟨⟨o', h4, by rw [h5]; exact h2⟩, h3⟩

theorem RelNear.mono (h : RelNear n τ δ ε k c p) (hτ : 0 ≤ δ) (hε : 0 ≤ ε) (hk : k ≤ k') : RelNear n τ δ ε k' c p where
  wf := h.wf
  ents := h.ents
  seqs := h.seqs.imp fun _ _ ⟨o, m, h1, h2⟩ => ⟨o, m, h1, h2.le, h2.dim, h2.arr, h2.ok.mono hτ hε hk⟩
  nodup := h.nodup

theorem RelNear.seq_lt (h : RelNear n τ δ ε k c p) {t : ℕ} (ht : t ∈ c.seqs) : t < c.world.seqs.length := by
  obtain ⟨i, hi⟩ := List.mem_iff_getElem?.mp ht
  rcases forall₂_getElem? h.seqs i with ⟨h1, -⟩ | ⟨a, b, h1, -, o, m, h2, -⟩
  · rw [hi] at h1; cases h1
  · rw [hi] at h1; cases h1
    exact (List.getElem?_eq_some_iff.mp h2).1

/-- One sequence object was changed. -/
theorem RelNear.step (h : RelNear n τ δ ε k c p) {s r m : ℕ} {w' : World} {o o' : SeqObj}
    (hs : c.seqs[s]? = some r) (st : Step τ c.world w' r o o') (ho : c.world.seqs[r]? = some o) {v' : SeqView}
    (hv : SeqNear n δ ε k w' v' o' m) : RelNear n τ δ ε k { c with world := w' } { p with seqs := p.seqs.set s v' } where
  wf := st.wf h.wf
  ents := h.ents.imp fun _ _ he => he.grow st.grow
  seqs := by
    refine forall₂_set h.seqs hs h.nodup ⟨o', m, st.get ho, hv⟩ ?_
    rintro x y _ hx ⟨o1, m1, h1, h2⟩
    exact ⟨o1, m1, by rw [st.get_ne hx]; exact h1, h2.le, h2.dim, h2.arr, h2.ok.grow (h.wf.seq h1) st.grow⟩
  nodup := h.nodup

theorem DriftOk.sameButProd {m : ℕ} {es es' : List EntryObj} {o o' : SeqObj} {gs : List Gate} {prev : Option (List Gate)}
    (h : DriftOk m δ ε k es o gs prev) (ho : SeqOk es o) (hg : Grow es es') (hs : SameButProd o o')
    (hp : o'.product = o.product) : DriftOk m δ ε k es' o' gs prev := by
  have h' := h.grow ho hg
  exact ⟨hs.dim.trans h'.dim, by rw [hs.entries]; exact h'.ents, h'.gok, h'.len, by rw [hp]; exact h'.prod,
    by rw [hs.prev]; exact h'.prevE, h'.prevG, by rw [hs.prevProd]; exact h'.prevP,
    by rw [hp, hs.prevProd]; exact h'.noprod⟩

/-- Objects were added. -/
theorem RelNear.ext (h : RelNear n τ δ ε k c p) {w' : World} (hwf : w'.WF τ) (hg : Grow c.world.entries w'.entries)
    {t : List SeqObj} (hseq : w'.seqs = c.world.seqs ++ t) {ne ns : List ℕ} {nv : List EntryVal}
    {nsv : List SeqView} (h1 : List.Forall₂ (EntryNear ε w'.entries) ne nv)
    (h2 : List.Forall₂ (fun r v => ∃ o m, w'.seqs[r]? = some o ∧ SeqNear n δ ε k w' v o m) ns nsv)
    (h3 : (c.seqs ++ ns).Nodup) :
    RelNear n τ δ ε k ⟨w', c.entries ++ ne, c.seqs ++ ns⟩ ⟨p.entries ++ nv, p.seqs ++ nsv⟩ where
  wf := hwf
  ents := forall₂_append' (h.ents.imp fun _ _ x => x.grow hg) h1
  seqs := by
    refine forall₂_append' ?_ h2
    refine h.seqs.imp ?_
    rintro r v ⟨o, m, h4, h5⟩
    refine ⟨o, m, ?_, h5.le, h5.dim, h5.arr, h5.ok.grow (h.wf.seq h4) hg⟩
    rw [hseq, List.getElem?_append_left (List.getElem?_eq_some_iff.mp h4).1]; exact h4
  nodup := h3

theorem SeqNear.mono_eps {ε' : ℝ} {v : SeqView} {o : SeqObj} {m : ℕ} {w : World} (h : SeqNear n δ ε k w v o m)
    (hτ : 0 ≤ δ) (hε : 0 ≤ ε) (hle : ε ≤ ε') : SeqNear n δ ε' k w v o m :=
  ⟨h.le, h.dim, h.arr, h.ok.mono_eps hτ hε hle⟩

theorem EntryNear.mono_eps {ε' : ℝ} {es : List EntryObj} {r : ℕ} {v : EntryVal} (h : EntryNear ε es r v)
    (hle : ε ≤ ε') : EntryNear ε' es r v := by
  obtain ⟨⟨o, h1, h2⟩, h3⟩ := h
  exact ⟨⟨o, h1, h2.1, h2.2.mono hle⟩, h3⟩

theorem RelNear.mono_eps {ε' : ℝ} (h : RelNear n τ δ ε k c p) (hτ : 0 ≤ δ) (hε : 0 ≤ ε) (hle : ε ≤ ε') :
    RelNear n τ δ ε' k c p where
  wf := h.wf
  ents := h.ents.imp fun _ _ h => h.mono_eps hle
  seqs := h.seqs.imp fun _ _ ⟨o, m, h1, h2⟩ => ⟨o, m, h1, h2.mono_eps hτ hε hle⟩
  nodup := h.nodup

/-- Objects were added, and the old ones stand for what they did. -/
theorem RelNear.drift_eps {ε' : ℝ} (h : RelNear n τ δ ε k c p) (hτ : 0 ≤ δ) (hε : 0 ≤ ε) (hle : ε ≤ ε') {k' : ℕ}
    (hk : k ≤ k') {w' : World} (hext : Ext τ c.world w') (hd : DriftExt n δ ε k c.world w')
    {ne ns : List ℕ} {nv : List EntryVal}
    {nsv : List SeqView} (h1 : List.Forall₂ (EntryNear ε' w'.entries) ne nv)
    (h2 : List.Forall₂ (fun r v => ∃ o m, w'.seqs[r]? = some o ∧ SeqNear n δ ε' k' w' v o m) ns nsv)
    (h3 : (c.seqs ++ ns).Nodup) :
    RelNear n τ δ ε' k' ⟨w', c.entries ++ ne, c.seqs ++ ns⟩ ⟨p.entries ++ nv, p.seqs ++ nsv⟩ where
  wf := hext.wf
  ents := forall₂_append' (h.ents.imp fun _ _ x => (x.grow hext.grow).mono_eps hle) h1
  seqs := by
    refine forall₂_append' ?_ h2
    refine h.seqs.imp ?_
    rintro r v ⟨o, m, h4, h5⟩
    obtain ⟨o', h6, h7, h8⟩ := hd r o m _ _ h4 h5.le h5.ok
    exact ⟨o', m, h6, h5.le, h5.dim, h5.arr.trans h7.symm, (h8.mono_eps hτ hε hle).mono hτ (hε.trans hle) hk⟩
  nodup := h3

theorem RelNear.drift (h : RelNear n τ δ ε k c p) {k' : ℕ} (hτ : 0 ≤ δ) (hε : 0 ≤ ε) (hk : k ≤ k') {w' : World}
    (hext : Ext τ c.world w') (hd : DriftExt n δ ε k c.world w') {ne ns : List ℕ} {nv : List EntryVal}
    {nsv : List SeqView} (h1 : List.Forall₂ (EntryNear ε w'.entries) ne nv)
    (h2 : List.Forall₂ (fun r v => ∃ o m, w'.seqs[r]? = some o ∧ SeqNear n δ ε k' w' v o m) ns nsv)
    (h3 : (c.seqs ++ ns).Nodup) :
    RelNear n τ δ ε k' ⟨w', c.entries ++ ne, c.seqs ++ ns⟩ ⟨p.entries ++ nv, p.seqs ++ nsv⟩ :=
  h.drift_eps hτ hε le_rfl hk hext hd h1 h2 h3

theorem near_dims {rs : List ℕ} {vs : List SeqView}
    (h : List.Forall₂ (fun r v => ∃ o m, c.world.seqs[r]? = some o ∧ SeqNear n δ ε k c.world v o m) rs vs) :
    (∀ r ∈ rs, ∃ o, c.world.seqs[r]? = some o) ∧ ∀ D, SeqsOk c.world D rs ↔ ∀ v ∈ vs, v.dimension = D := by
  induction h with
  | nil => exact ⟨by simp, fun D => by simp [SeqsOk]⟩
  | @cons r v rs vs hrv _ ih =>
    obtain ⟨o, m, h1, h2⟩ := hrv
    obtain ⟨i1, i2⟩ := ih
    refine ⟨?_, fun D => ?_⟩
    · intro x hx
      rcases List.mem_cons.mp hx with rfl | hx
      · exact ⟨o, h1⟩
      · exact i1 x hx
    · rw [List.forall_mem_cons, ← i2 D]
      unfold SeqsOk
      rw [List.forall_mem_cons]
      refine and_congr_left fun _ => ⟨fun ⟨o', h3, h4⟩ => ?_, fun h3 => ⟨o, h1, ?_⟩⟩
      · rw [h1] at h3; cases h3
        rw [h2.dim, ← h2.ok.dim]; exact h4
      · rw [h2.ok.dim, ← h2.dim]; exact h3

theorem driftSeqs_of {m : ℕ} {rs : List ℕ} {vs : List SeqView}
    (h : List.Forall₂ (fun r v => ∃ o m, c.world.seqs[r]? = some o ∧ SeqNear n δ ε k c.world v o m) rs vs)
    (hd : ∀ v ∈ vs, v.dimension = 2 ^ m) :
    DriftSeqs m δ ε k c.world rs (vs.map fun v => v.entries.map EntryVal.gate) := by
  induction h with
  | nil => exact .nil
  | @cons r v rs vs hrv _ ih =>
    obtain ⟨o, m', h1, h2⟩ := hrv
    have hm : m' = m := by
      have := hd v (by simp)
      rw [h2.dim] at this
      exact Nat.pow_right_injective (le_refl 2) this
    subst hm
    exact .cons ⟨o, _, h1, h2.ok⟩ (ih fun x hx => hd x (by simp [hx]))

/-- Result and state of a call agree with the ideal. -/
def StepNear (n : ℕ) (τ : Arith) (δ ε : ℝ) (k : ℕ) (x : Except PyErr Client.Obs × Client) (y : Except PyErr Plain.Obs × Plain) : Prop :=
  NearResult ε (driftErr n δ ε k) x.1 y.1 ∧ RelNear n τ δ ε k x.2 y.2

theorem call_near {α : Type} {m : PyM World α} {obs : α → World → Client.Obs}
    {newE newS : α → List ℕ} {Q : Except PyErr α → World → Prop} (h : Wp m Q c.world)
    {y : Except PyErr Plain.Obs × Plain}
    (hok : ∀ a w, Q (.ok a) w → StepNear n τ δ ε k (.ok (obs a w), ⟨w, c.entries ++ newE a, c.seqs ++ newS a⟩) y)
    (herr : ∀ e w, Q (.error e) w → StepNear n τ δ ε k (.error e, { c with world := w }) y) :
    StepNear n τ δ ε k (c.call m obs newE newS) y := by
  unfold Wp at h
  unfold Client.call
  rcases hm : m c.world with ⟨e | a, w⟩ <;> rw [hm] at h
  · exact herr e w h
  · exact hok a w h

theorem near_dangling (h : RelNear n τ δ ε k c p) : StepNear n τ δ ε k (.error .dangling, c) (.error .dangling, p) := ⟨rfl, h⟩

theorem near_seq (h : RelNear n τ δ ε k c p) (hk : RelNear n τ δ ε k' c p) (s : ℕ)
    {f : ℕ → Except PyErr Client.Obs × Client} {g : SeqView → Except PyErr Plain.Obs × Plain}
    (hfg : ∀ r v o m, c.seqs[s]? = some r → p.seqs[s]? = some v → c.world.seqs[r]? = some o →
      SeqNear n δ ε k c.world v o m → StepNear n τ δ ε k' (f r) (g v)) :
    StepNear n τ δ ε k' (Client.with_ (c.seqs[s]?) c f) (Plain.with_ (p.seqs[s]?) p g) := by
  rcases forall₂_getElem? h.seqs s with ⟨h1, h2⟩ | ⟨r, v, h1, h2, o, m, h3, h4⟩
  · rw [h1, h2]; exact near_dangling hk
  · rw [h1, h2]; exact hfg r v o m h1 h2 h3 h4

theorem near_entry (h : RelNear n τ δ ε k c p) (e : ℕ) {f : ℕ → Except PyErr Client.Obs × Client}
    {g : EntryVal → Except PyErr Plain.Obs × Plain}
    (hfg : ∀ r x v, c.world.entries[r]? = some x → x.toVal.Realises v.gate ε → v.Good → StepNear n τ δ ε k (f r) (g v)) :
    StepNear n τ δ ε k (Client.with_ (c.entries[e]?) c f) (Plain.with_ (p.entries[e]?) p g) := by
  rcases forall₂_getElem? h.ents e with ⟨h1, h2⟩ | ⟨r, v, h1, h2, ⟨x, h3, h4⟩, h5⟩
  · rw [h1, h2]; exact near_dangling h
  · rw [h1, h2]; exact hfg r x v h3 h4 h5

theorem Budget.pred (h : Budget n τ δ ε (k + 1)) : Budget n τ δ ε k := h.mono (Nat.le_succ k)

/-- A change of the list of entries. -/
theorem near_change (h : RelNear n τ δ ε k c p) (hb : Budget n τ δ ε (k + 1)) {s r m : ℕ} {v : SeqView} {o : SeqObj}
    (hs : c.seqs[s]? = some r) (ho : c.world.seqs[r]? = some o)
    (hv : SeqNear n δ ε k c.world v o m) {b : Bool} {m' : PyM World Unit} {newVals : List EntryVal}
    (hm : Wp m' (fun res w' => ∃ o', Step τ c.world w' r o o' ∧
      DriftRes m δ ε k o (v.entries.map EntryVal.gate) (newVals.map EntryVal.gate)
        (v.undo.map (List.map EntryVal.gate)) b res w' o') c.world) :
    StepNear n τ δ ε (k + 1) (c.call m' (fun _ _ => .unit) (fun _ => []) (fun _ => [])) (p.change s v b newVals) := by
  have h' := h.mono hb.t0 hb.eps (Nat.le_succ k)
  have hund : ∀ gs : List EntryVal, (if b then some (gs.map EntryVal.gate) else v.undo.map (List.map EntryVal.gate)) =
      (if b then some gs else v.undo).map (List.map EntryVal.gate) := by intro gs; cases b <;> rfl
  unfold Plain.change
  refine call_near hm ?_ ?_
  · rintro a w' ⟨o', st, h1, h2⟩
    cases harr : o.isArray with
    | true => exact absurd (h2 harr).1 (by simp)
    | false =>
      simp only [hv.arr, harr, Bool.false_eq_true, if_false]
      refine ⟨trivial, ?_⟩
      have hd := (h1 harr).2
      rw [hund] at hd
      have := h'.step (v' := { v with entries := newVals, undo := if b then some v.entries else v.undo }) hs st ho
        ⟨hv.le, hv.dim, hv.arr.trans st.arr.symm, hd⟩
      simpa [hv.arr, harr] using this
  · rintro e w' ⟨o', st, h1, h2⟩
    cases harr : o.isArray with
    | true =>
      obtain ⟨hres, hd⟩ := h2 harr
      simp only [Except.error.injEq] at hres
      simp only [hv.arr, harr, if_true]
      refine ⟨hres, ?_⟩
      rw [hund] at hd
      have := h'.step (v' := { v with undo := if b then some v.entries else v.undo }) hs st ho
        ⟨hv.le, hv.dim, hv.arr.trans st.arr.symm, hd⟩
      simpa [hv.arr, harr] using this
    | false => exact absurd (h1 harr).1 (by simp)

theorem ModPost.step {w w' : World} {r : ℕ} {o o' : SeqObj} {b : Bool} {upd : List ℕ} {res : Except PyErr Unit}
    (h : ModPost τ w r o b upd res w' o') : Step τ w w' r o o' := by
  cases harr : o.isArray with
  | true => exact (h.2 harr).step
  | false => exact (h.1 harr).step

theorem near_append (h : RelNear n τ δ ε k c p) (hb : Budget n τ δ ε (k + 1)) (s e : ℕ) (b : Bool)
    {m' : ℕ → ℕ → PyM World Unit} {upd : List ℕ → ℕ → List ℕ} {updG : List Gate → Gate → List Gate}
    {updV : List EntryVal → EntryVal → List EntryVal}
    (hwp : ∀ r r' o x, c.world.seqs[r]? = some o → c.world.entries[r']? = some x →
      Wp (m' r r') (fun res w' => ∃ o', AppendPost τ c.world r o x b (upd o.entries r') res w' o') c.world)
    (hm : ∀ r r' o x m gs prev g, c.world.seqs[r]? = some o → c.world.entries[r']? = some x →
      DriftOk m δ ε k c.world.entries o gs prev → Budget m τ δ ε (k + 1) → x.toVal.Realises g ε → g.Ok m →
      Wp (m' r r') (fun res w' => ∃ o', AppendPost τ c.world r o x b (upd o.entries r') res w' o' ∧
        DriftRes m δ ε k o gs (updG gs g) prev b res w' o') c.world)
    (hupd : ∀ vs v, (updV vs v).map EntryVal.gate = updG (vs.map EntryVal.gate) v.gate) :
    StepNear n τ δ ε (k + 1) (Client.with_ (c.seqs[s]?) c fun s => Client.with_ (c.entries[e]?) c fun e =>
        c.call (m' s e) (fun _ _ => .unit) (fun _ => []) (fun _ => []))
      (Plain.with_ (p.seqs[s]?) p fun v => Plain.with_ (p.entries[e]?) p fun g =>
        open Classical in
        if Plain.fits v.dimension g then p.change s v b (updV v.entries g) else (.error .assertion, p)) := by
  have h' := h.mono hb.t0 hb.eps (Nat.le_succ k)
  refine near_seq h h' s fun r v o m hs hp ho hv => near_entry h' e fun r' x g hx hr hg => ?_
  rw [hv.dim]
  by_cases hf : Plain.fits (2 ^ m) g
  · rw [if_pos hf]
    refine near_change h hb hs ho hv ?_
    refine (hm r r' o x m _ _ g.gate ho hx hv.ok (hb.dim hv.le).1 hr (hg.ok hf)).mono ?_
    rintro res w' ⟨o', h1, h2⟩
    have hfd : FitsDim x.toVal o.dimension := by rw [hv.ok.dim]; exact (fitsDim_iff_near hr hg).mpr hf
    exact ⟨o', ModPost.step (h1.accept hfd), by rw [hupd]; exact h2⟩
  · rw [if_neg hf]
    have hfd : ¬ FitsDim x.toVal o.dimension := by rw [hv.ok.dim]; exact fun h => hf ((fitsDim_iff_near hr hg).mp h)
    refine call_near (hwp r r' o x ho hx) ?_ ?_
    · rintro a w' ⟨o', h1⟩
      exact absurd (h1.reject hfd).1 (by simp)
    · rintro e w' ⟨o', h1⟩
      obtain ⟨h2, h3, -⟩ := h1.reject hfd
      cases h2
      exact ⟨rfl, by rw [h3]; exact h'⟩

theorem near_remove (h : RelNear n τ δ ε k c p) (hb : Budget n τ δ ε (k + 1)) (s : ℕ) (b : Bool)
    {m' : ℕ → PyM World Unit} {upd : List ℕ → List ℕ} {updG : List Gate → List Gate}
    {updV : List EntryVal → List EntryVal}
    (hwp : ∀ r o, c.world.seqs[r]? = some o →
      Wp (m' r) (fun res w' => ∃ o', RemovePost τ c.world r o b (upd o.entries) res w' o') c.world)
    (hm : ∀ r o m gs prev, c.world.seqs[r]? = some o →
      DriftOk m δ ε k c.world.entries o gs prev → Budget m τ δ ε (k + 1) → o.entries ≠ [] →
      Wp (m' r) (fun res w' => ∃ o', RemovePost τ c.world r o b (upd o.entries) res w' o' ∧
        DriftRes m δ ε k o gs (updG gs) prev b res w' o') c.world)
    (hupd : ∀ vs, (updV vs).map EntryVal.gate = updG (vs.map EntryVal.gate)) :
    StepNear n τ δ ε (k + 1) (Client.with_ (c.seqs[s]?) c fun s =>
        c.call (m' s) (fun _ _ => .unit) (fun _ => []) (fun _ => []))
      (Plain.with_ (p.seqs[s]?) p fun v =>
        open Classical in
        if v.entries = [] then (.ok .unit, p) else p.change s v b (updV v.entries)) := by
  have h' := h.mono hb.t0 hb.eps (Nat.le_succ k)
  refine near_seq h h' s fun r v o m hs hp ho hv => ?_
  have hiff : v.entries = [] ↔ o.entries = [] := by
    have h1 := List.Forall₂.length_eq hv.ok.ents
    rw [valsOf_length (h.wf.seq ho).entries.lt, List.length_map] at h1
    rw [← List.length_eq_zero_iff, ← h1, List.length_eq_zero_iff]
  by_cases he : o.entries = []
  · rw [if_pos (hiff.mpr he)]
    refine call_near (hwp r o ho) ?_ ?_
    · rintro a w' ⟨o', h1⟩
      obtain ⟨-, h2, -⟩ := h1.empty he
      refine ⟨trivial, ?_⟩
      rw [h2]; simpa using h'
    · rintro e w' ⟨o', h1⟩
      exact absurd (h1.empty he).1 (by simp)
  · rw [if_neg fun h' => he (hiff.mp h')]
    refine near_change h hb hs ho hv ?_
    refine (hm r o m _ _ ho hv.ok (hb.dim hv.le).1 he).mono ?_
    rintro res w' ⟨o', h1, h2⟩
    exact ⟨o', ModPost.step (h1.some he), by rw [hupd]; exact h2⟩

theorem entryNew_swap {u v : Unitary} (h : u.getDimension = v.getDimension) (qs : List ℤ) :
    EntryVal.new u qs = (EntryVal.new v qs).map fun x => { x with unitary := u } := by
  unfold EntryVal.new
  rw [h]
  generalize assertE qs.Nodup = a
  generalize assertE (2 ^ qs.length = v.getDimension) = b
  generalize raiseUnless (qs ≠ []) .valueError = d
  generalize assertE (∀ a ∈ qs, 0 ≤ a) = e
  rcases a with _ | _
  · rfl
  rcases b with _ | _
  · rfl
  rcases d with _ | _
  · rfl
  rcases e with _ | _ <;> rfl

theorem Gate.ok_of_entry {x : EntryVal} (h : x.WF) (he : x.Exact) : x.Good := by
  obtain ⟨m, hm⟩ : ∃ m, ∀ q ∈ x.applyTo, q < m := by
    refine ⟨x.applyTo.sum + 1, fun q hq => ?_⟩
    have := List.le_sum_of_mem hq
    omega
  exact ⟨m, h.nodup, h.nonempty, hm, (mem_specialUnitaryGroup_iff.mp he.2.2.2).1⟩

theorem near_newEntry (h : RelNear n τ δ ε k c p) {u v : Unitary} {qs : List ℤ} {d : ℕ} (hv : v.Exact d)
    (hu : u.Near (v.matrix.toMatrix d) ε) :
    StepNear n τ δ ε k (c.step τ (.newEntry u qs)) (p.step (.newEntry v qs)) := by
  simp only [Client.step, Plain.step]
  have hdim : u.getDimension = v.getDimension := hu.dim.trans hv.dim.symm
  unfold Entry.new
  rw [entryNew_swap hdim]
  rcases hev : EntryVal.new v qs with err | x
  · simp only [Except.map]
    rw [(Client.call_eq (m := _)).2 err c.world
      (show (PyM.lift (Except.error err) >>= fun v => allocEntry ⟨v, []⟩) c.world = _ from rfl)]
    exact ⟨rfl, h⟩
  · obtain ⟨hxwf, hxu⟩ := entryNew_ok hev
    have hxe := entryNew_exact hev hv
    have hd : d = 2 ^ x.applyTo.length := by
      have h1 := hxwf.dim
      unfold EntryVal.getDimension at h1
      rw [hxu, hv.dim] at h1
      exact h1
    subst hd
    have hr : (⟨u, x.applyTo⟩ : EntryVal).Realises x.gate ε := by
      refine ⟨rfl, ?_⟩
      show u.Near (x.unitary.matrix.toMatrix _) ε
      rw [hxu]; exact hu
    have hgood := Gate.ok_of_entry hxwf hxe
    obtain ⟨m, hm⟩ := hgood
    simp only [Except.map]
    rw [(Client.call_eq).1 c.world.entries.length
        { c.world with entries := c.world.entries ++ [⟨⟨u, x.applyTo⟩, []⟩] }
        (show (PyM.lift (Except.ok (⟨u, x.applyTo⟩ : EntryVal)) >>= fun v => allocEntry ⟨v, []⟩) c.world = _ from rfl)]
    have hok : EntriesOk τ [(⟨⟨u, x.applyTo⟩, []⟩ : EntryObj)] := by
      intro y hy
      rw [List.mem_singleton] at hy; subst hy
      exact ⟨hr.wf hm, by simp⟩
    have hext := Ext.appendEntries h.wf hok
    refine ⟨trivial, ?_⟩
    have := h.ext (ne := [c.world.entries.length]) (nv := [x]) (ns := []) (nsv := []) (t := []) hext.wf hext.grow
      (by simp) (.cons ⟨⟨⟨⟨u, x.applyTo⟩, []⟩, by simp, hr⟩, m, hm⟩ .nil) .nil (by simpa using h.nodup)
    simpa using this

theorem getAll_length {α : Type} {t : List α} {is : List ℕ} {l : List α} (h : getAll t is = some l) :
    l.length = is.length := by
  induction is generalizing l with
  | nil => simp only [getAll, Option.some.injEq] at h; subst h; rfl
  | cons i is ih =>
    unfold getAll at h
    split at h
    · rename_i a as ha has
      simp only [Option.some.injEq] at h
      subst h
      simp [ih has]
    · cases h

theorem entriesNear_all {es : List EntryObj} {rs : List ℕ} {vs : List EntryVal}
    (h : List.Forall₂ (EntryNear ε es) rs vs) :
    (∀ r ∈ rs, r < es.length) ∧ RealisesAll ε (valsOf es rs) (vs.map EntryVal.gate) ∧ (∀ v ∈ vs, v.Good) ∧
    ∀ m, (∀ v ∈ vs, Plain.fits (2 ^ m) v) ↔ RefsOk es (2 ^ m) rs := by
  induction h with
  | nil => exact ⟨by simp, .nil, by simp, fun m => ⟨fun _ r hr => by simp at hr, fun _ v hv => by simp at hv⟩⟩
  | @cons r v rs vs hrv _ ih =>
    obtain ⟨⟨o, ho, hr⟩, hg⟩ := hrv
    obtain ⟨h1, h2, h3, h4⟩ := ih
    refine ⟨?_, ?_, ?_, fun m => ?_⟩
    · intro x hx
      rcases List.mem_cons.mp hx with rfl | hx
      · exact (List.getElem?_eq_some_iff.mp ho).1
      · exact h1 x hx
    · rw [valsOf_cons ho, List.map_cons]; exact h2.cons hr
    · intro x hx
      rcases List.mem_cons.mp hx with rfl | hx
      · exact hg
      · exact h3 x hx
    · rw [List.forall_mem_cons, h4 m, ← fitsDim_iff_near hr hg]
      unfold RefsOk
      rw [List.forall_mem_cons]
      exact and_congr_left fun _ => ⟨fun h => ⟨o, ho, h⟩, fun ⟨o', ho', h⟩ => by
        rw [ho] at ho'; cases ho'; exact h⟩

theorem entriesNear_of {es : List EntryObj} {rs : List ℕ} {vs : List EntryVal} (hlt : ∀ r ∈ rs, r < es.length)
    (h : RealisesAll ε (valsOf es rs) (vs.map EntryVal.gate)) (hg : ∀ v ∈ vs, v.Good) :
    List.Forall₂ (EntryNear ε es) rs vs := by
  induction rs generalizing vs with
  | nil =>
    have h1 := List.Forall₂.length_eq h
    cases vs with
    | nil => exact .nil
    | cons => simp [valsOf_nil] at h1
  | cons r rs ih =>
    have hr := List.getElem?_eq_getElem (hlt r (by simp))
    rw [valsOf_cons hr] at h
    cases vs with
    | nil => cases h
    | cons v vs =>
      rw [List.map_cons] at h
      cases h with
      | cons h1 h2 =>
        exact .cons ⟨⟨_, hr, h1⟩, hg v (by simp)⟩ (ih (fun x hx => hlt x (by simp [hx])) h2 fun x hx => hg x (by simp [hx]))

theorem NearResult.mono {E E' : ℝ} {x : Except PyErr Client.Obs} {y : Except PyErr Plain.Obs} (h : NearResult ε E x y)
    (hE : E ≤ E') : NearResult ε E' x y := by
  rcases x with _ | a <;> rcases y with _ | b
  · exact h
  · exact h
  · exact h
  · cases a <;> cases b <;> first | exact h | exact Unitary.Near.mono h hE

/-- One call. -/
theorem step_near0 (h : RelNear n τ δ ε k c p) {op op' : Op} (ha : op.Approximates n ε op')
    (hinv : op.inversions = 0) (hb : Budget n τ δ ε (op.count k)) :
    StepNear n τ δ ε (op.count k) (c.step τ op) (p.step op') := by
  cases op with
  | newEntry u qs =>
    cases op' <;> simp only [Op.Approximates] at ha
    obtain ⟨rfl, d, hv, hu⟩ := ha
    exact near_newEntry h hv hu
  | newSeq D arr es =>
    cases op' <;> simp only [Op.Approximates] at ha
    obtain ⟨rfl, rfl, rfl, m, hm, rfl⟩ := ha
    have h' := h.mono hb.t0 hb.eps (Nat.le_add_right k es.length)
    simp only [Client.step, Plain.step]
    rcases forall₂_getAll h.ents es with ⟨h1, h2⟩ | ⟨rs, vs, h1, h2, h3⟩
    · rw [h1, h2]; exact near_dangling h'
    rw [h1, h2]
    simp only [Client.with_, Plain.with_]
    have hlen : vs.length ≤ k + es.length := by
      rw [getAll_length h2]; exact Nat.le_add_left _ _
    obtain ⟨hlt, hents, hgood, hiff⟩ := entriesNear_all h3
    have hiff := hiff m
    by_cases hf : RefsOk c.world.entries (2 ^ m) rs
    · rw [if_pos (hiff.mpr hf)]
      refine call_near (new_wp h.wf hlt) ?_ ?_
      · rintro a w' ⟨-, h4⟩
        obtain ⟨rs', ha, hext, hseq, hcop⟩ := h4 hf
        cases ha
        refine ⟨trivial, ?_⟩
        have hget : w'.seqs[c.world.seqs.length]? = some ⟨2 ^ m, arr, rs', none, none, none⟩ := by
          rw [hseq, List.getElem?_append_right (le_refl _)]; simp
        have hgok : ∀ g ∈ vs.map EntryVal.gate, g.Ok m := by
          intro g hg
          obtain ⟨v, hv, rfl⟩ := List.mem_map.mp hg
          exact (hgood v hv).ok (hiff.mpr hf v hv)
        have := h'.ext (ne := []) (nv := []) (ns := [c.world.seqs.length]) (nsv := [⟨2 ^ m, arr, vs, none⟩])
          hext.wf hext.grow hseq .nil
          (.cons ⟨_, m, hget, hm, rfl, rfl, rfl, by rw [hcop.vals]; exact hents, hgok, by simpa using hlen,
            fun _ h => (by cases h), .none, fun _ h => (by cases h), fun _ h => (by cases h), fun _ => rfl⟩ .nil)
          (by
            rw [List.nodup_append]
            refine ⟨h.nodup, by simp, ?_⟩
            intro a ha b hb hab
            rw [List.mem_singleton] at hb
            have := h.seq_lt ha
            omega)
        simpa [Op.count] using this
      · rintro e w' ⟨-, h4⟩
        obtain ⟨rs', ha, -⟩ := h4 hf
        cases ha
    · rw [if_neg fun h4 => hf (hiff.mp h4)]
      refine call_near (new_wp h.wf hlt) ?_ ?_
      · rintro a w' ⟨h4, -⟩
        exact absurd (h4 hf).1 (by simp)
      · rintro e w' ⟨h4, -⟩
        obtain ⟨h5, h6⟩ := h4 hf
        cases h5
        exact ⟨rfl, by rw [h6]; exact h'⟩
  | appendFirst s e b =>
    simp only [Op.Approximates] at ha; subst ha
    exact near_append h hb s e b (upd := fun rs r => r :: rs) (updV := fun vs v => v :: vs) (updG := fun gs g => g :: gs)
      (fun r r' o x ho hx => appendFirst_wp h.wf ho hx b)
      (fun r r' o x m gs prev g ho hx hd hb hr hg => appendFirst_drift hd hb h.wf ho hx hr hg b) (fun _ _ => rfl)
  | appendLast s e b =>
    simp only [Op.Approximates] at ha; subst ha
    exact near_append h hb s e b (upd := fun rs r => rs ++ [r]) (updV := fun vs v => vs ++ [v])
      (updG := fun gs g => gs ++ [g]) (fun r r' o x ho hx => appendLast_wp h.wf ho hx b)
      (fun r r' o x m gs prev g ho hx hd hb hr hg => appendLast_drift hd hb h.wf ho hx hr hg b) (fun _ _ => by simp)
  | removeFirst s b =>
    simp only [Op.Approximates] at ha; subst ha
    exact near_remove h hb s b (upd := List.tail) (updV := List.tail) (updG := List.tail)
      (fun r o ho => removeFirst_wp h.wf ho b)
      (fun r o m gs prev ho hd hb hne => removeFirst_drift hd hb h.wf ho b hne) (fun _ => by simp)
  | removeLast s b =>
    simp only [Op.Approximates] at ha; subst ha
    exact near_remove h hb s b (upd := List.dropLast) (updV := List.dropLast) (updG := List.dropLast)
      (fun r o ho => removeLast_wp h.wf ho b)
      (fun r o m gs prev ho hd hb hne => removeLast_drift hd hb h.wf ho b hne) (fun _ => by simp)
  | undo s =>
    simp only [Op.Approximates] at ha; subst ha
    simp only [Client.step, Plain.step, Op.count] at hb ⊢
    refine near_seq h h s fun r v o m hs hp ho hv => ?_
    rcases hprev : o.previousEntries with _ | ps
    · have hvn : v.undo = none := by simpa using hv.ok.prev_none.mp hprev
      rw [hvn]
      refine call_near (undo_wp h.wf ho) ?_ ?_
      · rintro a w' ⟨o', -, h1, -, -⟩
        exact absurd (h1 hprev).1 (by simp)
      · rintro e w' ⟨o', -, h1, -, -⟩
        obtain ⟨h2, h3, -⟩ := h1 hprev
        cases h2
        exact ⟨rfl, by rw [h3]; exact h⟩
    · obtain ⟨old, hold⟩ : ∃ old, v.undo = some old := by
        rcases hu : v.undo with _ | old
        · have := hv.ok.prev_none.mpr (by rw [hu]; rfl)
          rw [hprev] at this; cases this
        · exact ⟨old, rfl⟩
      rw [hold]
      refine call_near (undo_wp h.wf ho) ?_ ?_
      · rintro a w' ⟨o', st, -, h2, -⟩
        obtain ⟨-, h4, rfl⟩ := h2 ps hprev
        refine ⟨trivial, ?_⟩
        have hd := undo_drift hv.ok (gs' := old.map EntryVal.gate) (by rw [hold]; rfl) hprev
        have := h.step (v' := { v with entries := old, undo := none }) hs st ho
          ⟨hv.le, hv.dim, hv.arr, by rw [h4]; exact hd⟩
        simpa using this
      · rintro e w' ⟨o', -, -, h2, -⟩
        exact absurd (h2 ps hprev).1 (by simp)
  | product s =>
    simp only [Op.Approximates] at ha; subst ha
    simp only [Client.step, Plain.step, Op.count] at hb ⊢
    refine near_seq h h s fun r v o m hs hp ho hv => ?_
    obtain ⟨hbm, hle⟩ := hb.dim hv.le
    refine call_near (product_drift hv.ok hbm h.wf ho) ?_ ?_
    · rintro u w' ⟨o', q, hpost, hres, hn, hd, -⟩
      cases hres
      refine ⟨?_, ?_⟩
      · show u.Near (circuit (Nat.log 2 v.dimension) v.entries) _
        rw [hv.dim, log2_pow]
        rw [gateProduct_gates] at hn
        exact hn.mono hle
      · have := h.step (v' := v) hs hpost.step ho ⟨hv.le, hv.dim, hv.arr.trans hpost.same.arr.symm, hd⟩
        rw [set_getElem?_self hp] at this
        simpa using this
    · rintro e w' ⟨o', q, -, hres, -⟩
      cases hres
  | getEntries s =>
    simp only [Op.Approximates] at ha; subst ha
    simp only [Client.step, Plain.step, Op.count] at hb ⊢
    refine near_seq h h s fun r v o m hs hp ho hv => ?_
    refine call_near (getSequenceEntries_wp h.wf ho) ?_ ?_
    · rintro rs w' ⟨rs', hrs, hext, hseq, hcop⟩
      cases hrs
      refine ⟨?_, ?_⟩
      · show List.Forall₂ _ (valsOf w'.entries rs) v.entries
        rw [hcop.vals]
        exact List.forall₂_map_right_iff.mp hv.ok.ents
      · have := h.ext (ne := rs) (nv := v.entries) (ns := []) (nsv := []) (t := []) hext.wf hext.grow (by simpa using hseq)
          (entriesNear_of hcop.lt (by rw [hcop.vals]; exact hv.ok.ents)
            fun x hx => ⟨m, hv.ok.gok x.gate (List.mem_map_of_mem hx)⟩) .nil (by simpa using h.nodup)
        simpa using this
    · rintro e w' ⟨rs', hrs, -⟩
      cases hrs
  | getLength s =>
    simp only [Op.Approximates] at ha; subst ha
    simp only [Client.step, Plain.step, Op.count] at hb ⊢
    refine near_seq h h s fun r v o m hs hp ho hv => ?_
    have hlen : Seq.getLength r c.world = (.ok o.entries.length, c.world) := by
      unfold Seq.getLength
      rw [PyM.bind_of_ok (getSeq_some ho)]; rfl
    rw [(Client.call_eq).1 _ _ hlen]
    refine ⟨?_, by simpa using h⟩
    have h1 := List.Forall₂.length_eq hv.ok.ents
    rw [valsOf_length (h.wf.seq ho).entries.lt, List.length_map] at h1
    exact h1
  | inverse s => simp [Op.inversions] at hinv
  | combine ss =>
    simp only [Op.Approximates] at ha; subst ha
    simp only [Op.count] at hb ⊢
    have hk : k ≤ k + ss.length * (k + 1) := Nat.le_add_right _ _
    have h' := h.mono hb.t0 hb.eps hk
    simp only [Client.step, Plain.step]
    rcases forall₂_getAll h.seqs ss with ⟨h1, h2⟩ | ⟨rs, vs, h1, h2, h3⟩
    · rw [h1, h2]; exact near_dangling h'
    rw [h1, h2]
    simp only [Client.with_, Plain.with_]
    have hlen : rs.length = ss.length := getAll_length h1
    obtain ⟨hex, hdims⟩ := near_dims h3
    cases h3 with
    | nil =>
      refine call_near (combine_wp h.wf hex) ?_ ?_
      · rintro a w' ⟨h', -⟩
        exact absurd (h' fun _ => .inl rfl).1 (by simp)
      · rintro e w' ⟨h4, -⟩
        obtain ⟨h4, h5⟩ := h4 fun _ => .inl rfl
        cases h4
        exact ⟨rfl, by rw [h5]; exact h'⟩
    | @cons r v rs vs hrv htl =>
      simp only
      obtain ⟨o, m, ho, hv⟩ := hrv
      by_cases hd : ∀ v' ∈ v :: vs, v'.dimension = v.dimension
      · rw [if_pos hd]
        have hds : DriftSeqs m δ ε k c.world (r :: rs) ((v :: vs).map fun v => v.entries.map EntryVal.gate) :=
          driftSeqs_of (.cons ⟨o, m, ho, hv⟩ htl) fun v' hv' => (hd v' hv').trans hv.dim
        rw [← hlen] at hb h' ⊢
        refine call_near (combine_drift hv.le (by simp) (hb.mono (Nat.le_add_left _ _)) h.wf hds) ?_ ?_
        · rintro t w' ⟨hpost, hext, hres, o', hobj, harr, -, hok⟩
          cases hres
          refine ⟨trivial, ?_⟩
          have := h.drift (ne := []) (nv := []) (ns := [c.world.seqs.length]) hb.t0 hb.eps (Nat.le_add_right _ _)
            (nsv := [⟨v.dimension, false, ((v :: vs).map SeqView.entries).flatten, none⟩])
            hpost.ext hext .nil (.cons ⟨o', m, hobj, hv.le, hv.dim, harr.symm, (by
              have h4 := hok.mono (k' := k + (r :: rs).length * (k + 1)) hb.t0 hb.eps (Nat.le_add_left _ _)
              have h5 : (((v :: vs).map SeqView.entries).flatten).map EntryVal.gate =
                  ((v :: vs).map fun v => v.entries.map EntryVal.gate).flatten := by
                rw [List.map_flatten, List.map_map]; rfl
              rw [← h5] at h4
              exact h4)⟩ .nil)
            (by
              rw [List.nodup_append]
              refine ⟨h.nodup, by simp, ?_⟩
              intro a ha b hb hab
              rw [List.mem_singleton] at hb
              have := h.seq_lt ha
              omega)
          simpa using this
        · rintro e w' ⟨-, -, hres, -⟩
          cases hres
      · rw [if_neg hd]
        have hnd : ∀ D, r :: rs = [] ∨ ¬ SeqsOk c.world D (r :: rs) := by
          intro D
          right
          rw [hdims D]
          intro hD
          exact hd fun v' hv' => (hD v' hv').trans (hD v (by simp)).symm
        refine call_near (combine_wp h.wf hex) ?_ ?_
        · rintro a w' ⟨h4, -⟩
          exact absurd (h4 hnd).1 (by simp)
        · rintro e w' ⟨h4, -⟩
          obtain ⟨h4, h5⟩ := h4 hnd
          cases h4
          exact ⟨rfl, by rw [h5]; exact h'⟩
  | fullUnitary e D =>
    simp only [Op.Approximates] at ha
    obtain ⟨rfl, m, hm, rfl⟩ := ha
    simp only [Op.count] at hb ⊢
    have h' := h.mono hb.t0 hb.eps (Nat.le_succ k)
    simp only [Client.step, Plain.step]
    refine near_entry h' e fun r x v hx hr hg => ?_
    have key : ∀ res w', (res = x.toVal.fullUnitary τ (2 ^ m) ∧
        ∃ o', w' = { c.world with entries := c.world.entries.set r o' } ∧ o'.toVal = x.toVal ∧ o'.Ok τ) →
        RelNear n τ δ ε (k + 1) { c with world := w' } p := by
      rintro res w' ⟨-, o', rfl, hv, hok⟩
      have hgr := Grow.set hx hv
      have := h'.ext (w' := { c.world with entries := c.world.entries.set r o' }) (t := []) (ne := []) (nv := [])
        (ns := []) (nsv := []) ⟨h.wf.entries.set hok, fun o ho => (h.wf.seqs o ho).grow hgr⟩ hgr (by simp) .nil .nil
        (by simpa using h.nodup)
      simpa using this
    by_cases hf : Plain.fits (2 ^ m) v
    · rw [if_pos hf]
      have hbm : Budget m τ δ ε (k + 1) := hb.dim' hm
      obtain ⟨f, h1, h2⟩ := full_drift hbm (hg.ok hf) hr
      refine call_near (getFullUnitary_wp h.wf.entries hx (2 ^ m)) ?_ ?_
      · rintro u w' hpost
        have := hpost.1
        rw [h1] at this; cases this
        refine ⟨?_, by simpa using key _ w' hpost⟩
        show f.Near (v.op (Nat.log 2 (2 ^ m))) _
        rw [log2_pow]
        refine Unitary.Near.mono (h2 : f.Near (v.op m) _) ?_
        refine le_trans ?_ ((driftErr_mono (k := 1) hbm.t0 hbm.eps (by omega)).trans (hb.dim hm).2)
        have := two_pow_tau_nonneg m hbm.t0
        simp only [driftErr, stepErr, pow_one]
        linarith
      · rintro e w' hpost
        have := hpost.1
        rw [h1] at this; cases this
    · rw [if_neg hf]
      have herr : x.toVal.fullUnitary τ (2 ^ m) = .error .assertion := by
        obtain ⟨m', hm'⟩ := hg
        refine EntryVal.fullUnitary_reject (hb.dim' hm).tau hb.tau1 hr hm' (fun h => hf (fits_iff.mpr fun q hq => h q (by
          rw [hr.1]; exact hq))) (le_trans ?_ (hb.dim' hm).step)
        have := two_pow_tau_nonneg m hb.t0
        unfold stepErr; linarith
      refine call_near (getFullUnitary_wp h.wf.entries hx (2 ^ m)) ?_ ?_
      · rintro u' w' hpost
        have := hpost.1
        rw [herr] at this; cases this
      · rintro e w' hpost
        have := hpost.1
        rw [herr] at this; cases this
        exact ⟨rfl, key _ w' hpost⟩
  | text kd fmt s =>
    simp only [Op.Approximates] at ha; subst ha
    simp only [Op.count] at hb ⊢
    have h' := h.mono hb.t0 hb.eps (Nat.le_succ k)
    simp only [Client.step, Plain.step]
    refine near_seq h' h' s fun r v o m hs hp ho hv => ?_
    have hbm : Budget m τ δ ε (k + 1) := hb.dim' hv.le
    obtain ⟨ls, hls⟩ : ∃ ls, freshLines τ (kd.unitary fmt) o.dimension (valsOf c.world.entries o.entries) = .ok ls := by
      refine freshLines_ok fun e he => ?_
      obtain ⟨g, hg, hr⟩ := forall₂_mem_left hv.ok.ents he
      obtain ⟨f, hf, -⟩ := full_drift hbm (hv.ok.gok g hg) hr
      exact ⟨f, by rw [hv.ok.dim]; exact hf⟩
    refine call_near (text_wp h.wf ho kd fmt) ?_ ?_
    · rintro t w' ⟨ht, hca⟩
      refine ⟨trivial, ?_⟩
      have hext := hca.ext h.wf
      have := h'.ext (w' := w') (t := []) (ne := []) (nv := []) (ns := []) (nsv := []) hext.wf hext.grow (by rw [hca.eq]; simp) .nil .nil
        (by simpa using h.nodup)
      simpa using this
    · rintro e w' ⟨ht, -⟩
      rw [hls] at ht
      cases ht

/-- `inverse`. -/
theorem near_inverse (h : RelNear n τ δ ε k c p) (hε : 0 ≤ ε) {s : ℕ} (hi : (Op.inverse s).NoSharedInverse c)
    (hb : Budget n τ δ (ε + 3 * 2 ^ n * δ) (k + 1)) :
    StepNear n τ δ (ε + 3 * 2 ^ n * δ) (k + 1) (c.step τ (.inverse s)) (p.step (.inverse s)) := by
  have hle : ε ≤ ε + 3 * 2 ^ n * δ := by linarith [two_pow_tau_nonneg n hb.t0]
  have h' := (h.mono_eps hb.t0 hε hle).mono hb.t0 hb.eps (Nat.le_succ k)
  simp only [Client.step, Plain.step]
  rcases forall₂_getElem? h.seqs s with ⟨h1, h2⟩ | ⟨r, v, h1, h2, o, m, ho, hv⟩
  · rw [h1, h2]; exact near_dangling h'
  rw [h1, h2]
  simp only [Client.with_, Plain.with_]
  have hnd : o.entries.Nodup := hi r o h1 ho
  refine call_near (inverse_drift hb hε hv.le h.wf ho hv.ok hnd) ?_ ?_
  · rintro t w' ⟨hext, hde, harr, hok⟩
    have hf : o.isArray = false := by
      cases ha : o.isArray with
      | false => rfl
      | true => exact absurd (harr ha) (by simp)
    obtain ⟨hres, o', hobj, ha', -, hd⟩ := hok hf
    cases hres
    rw [if_neg (by rw [hv.arr, hf]; simp)]
    refine ⟨trivial, ?_⟩
    have := h.drift_eps hb.t0 hε hle (k' := k + 1) (Nat.le_succ k) (ne := []) (nv := []) (ns := [c.world.seqs.length])
      (nsv := [⟨v.dimension, false, (v.entries.map EntryVal.dagger).reverse, none⟩])
      hext hde .nil (.cons ⟨o', m, hobj, hv.le, hv.dim, ha'.symm, (by
        have h5 : ((v.entries.map EntryVal.dagger).reverse).map EntryVal.gate =
            ((v.entries.map EntryVal.gate).map Gate.dagger).reverse := by
          rw [List.map_reverse, List.map_map, List.map_map]
          exact congrArg List.reverse (List.map_congr_left fun x _ => EntryVal.gate_dagger x)
        rw [← h5] at hd
        exact hd)⟩ .nil)
      (by
        rw [List.nodup_append]
        refine ⟨h.nodup, by simp, ?_⟩
        intro a ha b hb hab
        rw [List.mem_singleton] at hb
        have := h.seq_lt ha
        omega)
    simpa using this
  · rintro e w' ⟨hext, hde, harr, hok⟩
    have harr' : o.isArray = true := by
      cases ha : o.isArray with
      | true => rfl
      | false => exact absurd (hok ha).1 (by simp)
    have := harr harr'
    cases this
    rw [if_pos (by rw [hv.arr, harr'])]
    refine ⟨rfl, ?_⟩
    have := h.drift_eps hb.t0 hε hle (k' := k + 1) (Nat.le_succ k) (ne := []) (nv := []) (ns := []) (nsv := []) hext hde .nil .nil
      (by simpa using h.nodup)
    simpa using this

theorem Op.Approximates.mono {ε' : ℝ} {op op' : Op} (h : op.Approximates n ε op') (hle : ε ≤ ε') :
    op.Approximates n ε' op' := by
  cases op <;> cases op' <;> try exact h
  obtain ⟨h1, d, h2, h3⟩ := h
  exact ⟨h1, d, h2, h3.mono hle⟩

theorem gateErr_mono {j j' : ℕ} (hτ : 0 ≤ δ) (h : j ≤ j') : gateErr n δ ε j ≤ gateErr n δ ε j' := by
  unfold gateErr
  gcongr

/-- One call. -/
theorem step_near (h : RelNear n τ δ ε k c p) (hε : 0 ≤ ε) {op op' : Op} (ha : op.Approximates n ε op')
    (hi : op.NoSharedInverse c) (hb : Budget n τ δ (gateErr n δ ε op.inversions) (op.count k)) :
    StepNear n τ δ (gateErr n δ ε op.inversions) (op.count k) (c.step τ op) (p.step op') := by
  by_cases h0 : op.inversions = 0
  · have : gateErr n δ ε op.inversions = ε := by simp [gateErr, h0]
    rw [this] at hb ⊢
    exact step_near0 h ha h0 hb
  · cases op with
    | inverse s =>
      simp only [Op.Approximates] at ha; subst ha
      have : gateErr n δ ε (Op.inverse s).inversions = ε + 3 * 2 ^ n * δ := by simp [gateErr, Op.inversions]
      rw [this] at hb ⊢
      exact near_inverse h hε hi hb
    | _ => exact absurd rfl h0

theorem Op.le_count (op : Op) (k : ℕ) : k ≤ op.count k := by cases op <;> simp [Op.count]

theorem Op.le_total (ops : List Op) (k : ℕ) : k ≤ Op.total ops k := by
  induction ops generalizing k with
  | nil => exact le_rfl
  | cons op ops ih => exact (op.le_count k).trans (ih _)

theorem NearResult.mono_eps {ε' E : ℝ} {x : Except PyErr Client.Obs} {y : Except PyErr Plain.Obs} (h : NearResult ε E x y)
    (hle : ε ≤ ε') : NearResult ε' E x y := by
  rcases x with _ | a <;> rcases y with _ | b
  · exact h
  · exact h
  · exact h
  · cases a <;> cases b <;> first
      | exact h
      | exact List.Forall₂.imp (fun _ _ (h : EntryVal.Realises _ _ ε) => ⟨h.1, h.2.mono hle⟩) h

/-- Every program. -/
theorem run_near (h : RelNear n τ δ ε k c p) (hε : 0 ≤ ε) {ops ops' : List Op}
    (ha : List.Forall₂ (Op.Approximates n ε) ops ops') (hi : c.NoSharedInverse τ ops) {K J : ℕ} (hK : Op.total ops k ≤ K)
    (hJ : (ops.map Op.inversions).sum ≤ J) (hb : Budget n τ δ (gateErr n δ ε J) K) :
    List.Forall₂ (NearResult (gateErr n δ ε J) (driftErr n δ (gateErr n δ ε J) K)) (c.run τ ops).1 (p.run ops').1 := by
  induction ops generalizing ops' c p k ε J with
  | nil => cases ha; exact .nil
  | cons op ops ih =>
    cases ha with
    | @cons _ op' _ ops' hop hops =>
    rw [List.map_cons, List.sum_cons] at hJ
    obtain ⟨j, rfl⟩ : ∃ j, J = op.inversions + j := ⟨J - op.inversions, by omega⟩
    have hτ := hb.t0
    have hstep : 0 ≤ gateErr n δ ε op.inversions := by
      have := two_pow_tau_nonneg n hτ
      unfold gateErr; positivity
    have hle : ε ≤ gateErr n δ ε op.inversions := by
      have := gateErr_mono (n := n) (ε := ε) hτ (Nat.zero_le op.inversions)
      simpa [gateErr] using this
    have hadd : gateErr n δ ε (op.inversions + j) = gateErr n δ (gateErr n δ ε op.inversions) j := by
      unfold gateErr; push_cast; ring
    have hle2 : gateErr n δ ε op.inversions ≤ gateErr n δ ε (op.inversions + j) := gateErr_mono hτ (Nat.le_add_right _ _)
    have hK1 : op.count k ≤ K := (Op.le_total ops _).trans hK
    obtain ⟨h1, h2⟩ := step_near h hε hop hi.1 ((hb.mono hK1).mono_eps hstep hle2)
    refine .cons ?_ ?_
    · exact (h1.mono ((driftErr_mono_eps hτ hstep hle2).trans (driftErr_mono hτ hb.eps hK1))).mono_eps hle2
    · rw [hadd]
      refine ih h2 hstep (hops.imp fun _ _ h => h.mono hle) hi.2 hK (by omega) ?_
      rw [← hadd]; exact hb

theorem RelNear.short (h : RelNear n τ δ ε k c p) {s : ℕ}
    (hs : ∀ v, p.seqs[s]? = some v → v.entries.length ≤ 1) : (Op.inverse s).NoSharedInverse c := by
  intro r o h1 h2
  rcases forall₂_getElem? h.seqs s with ⟨h3, -⟩ | ⟨r', v, h3, h4, o', m, h5, h6⟩
  · rw [h1] at h3; cases h3
  · rw [h1] at h3; cases h3
    rw [h2] at h5; cases h5
    have h7 := List.Forall₂.length_eq h6.ok.ents
    rw [valsOf_length (h.wf.seq h2).entries.lt, List.length_map] at h7
    have := hs v h4
    rcases hl : o.entries with _ | ⟨a, _ | ⟨b, l⟩⟩
    · exact List.nodup_nil
    · simp
    · rw [hl] at h7
      simp only [List.length_cons] at h7
      omega

theorem relNear_start (rng : Rng) : RelNear n τ δ ε 0 (Client.start rng) ⟨[], []⟩ where
  wf := ⟨by simp [Client.start, EntriesOk], by simp [Client.start]⟩
  ents := .nil
  seqs := .nil
  nodup := by simp [Client.start]

end

end Stoq
