import Verif.Proofs.Text
import Verif.Spec.History

/-! Every client program over the sequence API refines the specification on plain lists. -/

namespace Stoq

open World Matrix

/-! ## Views -/

/-- The view of an object. -/
def viewOf (es : List EntryObj) (o : SeqObj) : SeqView :=
  ⟨o.dimension, o.isArray, valsOf es o.entries, o.previousEntries.map (valsOf es)⟩

theorem view_eq_some {w : World} {r : ℕ} {v : SeqView} :
    w.view r = some v ↔ ∃ o, w.seqs[r]? = some o ∧ v = viewOf w.entries o := by
  unfold World.view
  rw [Option.map_eq_some_iff]
  constructor
  · rintro ⟨o, h1, h2⟩; exact ⟨o, h1, h2.symm⟩
  · rintro ⟨o, h1, h2⟩; exact ⟨o, h1, h2.symm⟩

theorem viewOf_grow {es es' : List EntryObj} {o : SeqObj} (h : SeqOk es o) (hg : Grow es es') :
    viewOf es' o = viewOf es o := by
  unfold viewOf
  rw [h.entries.vals_grow hg, prevVals_grow h hg]

theorem Ext.view {τ : Arith} {w w' : World} (hw : w.WF τ) (h : Ext τ w w') {r : ℕ} {v : SeqView}
    (hv : w.view r = some v) : w'.view r = some v := by
  obtain ⟨o, h1, rfl⟩ := view_eq_some.mp hv
  obtain ⟨o', h2, h3⟩ := h.seqs r o h1
  refine view_eq_some.mpr ⟨o', h2, ?_⟩
  rw [← viewOf_grow (hw.seq h1) h.grow]
  unfold viewOf
  rw [h3.dim, h3.arr, h3.entries, h3.prev]

theorem Step.view_ne {τ : Arith} {w w' : World} {s : ℕ} {o o' : SeqObj} (h : Step τ w w' s o o') (hw : w.WF τ)
    {r : ℕ} (hr : r ≠ s) {v : SeqView} (hv : w.view r = some v) : w'.view r = some v := by
  obtain ⟨x, h1, rfl⟩ := view_eq_some.mp hv
  exact view_eq_some.mpr ⟨x, by rw [h.get_ne hr]; exact h1, (viewOf_grow (hw.seq h1) h.grow).symm⟩

/-! ## Tables -/

theorem forall₂_getElem? {α β : Type} {R : α → β → Prop} {l : List α} {l' : List β} (h : List.Forall₂ R l l')
    (i : ℕ) : (l[i]? = none ∧ l'[i]? = none) ∨ ∃ a b, l[i]? = some a ∧ l'[i]? = some b ∧ R a b := by
  induction h generalizing i with
  | nil => left; simp
  | cons hab _ ih =>
    cases i with
    | zero => right; exact ⟨_, _, rfl, rfl, hab⟩
    | succ i => simpa using ih i

theorem forall₂_getAll {α β : Type} {R : α → β → Prop} {l : List α} {l' : List β} (h : List.Forall₂ R l l')
    (is : List ℕ) : (getAll l is = none ∧ getAll l' is = none) ∨
      ∃ as bs, getAll l is = some as ∧ getAll l' is = some bs ∧ List.Forall₂ R as bs := by
  induction is with
  | nil => right; exact ⟨[], [], rfl, rfl, .nil⟩
  | cons i is ih =>
    unfold getAll
    rcases forall₂_getElem? h i with ⟨h1, h2⟩ | ⟨a, b, h1, h2, hab⟩
    · left; simp [h1, h2]
    · rcases ih with ⟨h3, h4⟩ | ⟨as, bs, h3, h4, hs⟩
      · left; simp [h1, h2, h3, h4]
      · right; exact ⟨a :: as, b :: bs, by simp [h1, h3], by simp [h2, h4], .cons hab hs⟩

theorem forall₂_set {α β : Type} {R R' : α → β → Prop} {l : List α} {l' : List β} (h : List.Forall₂ R l l')
    {i : ℕ} {a : α} {b : β} (hi : l[i]? = some a) (hnd : l.Nodup) (hab : R' a b)
    (hne : ∀ x y, x ∈ l → x ≠ a → R x y → R' x y) : List.Forall₂ R' l (l'.set i b) := by
  induction h generalizing i with
  | nil => simp at hi
  | @cons x y xs ys hxy hs ih =>
    cases i with
    | zero =>
      simp only [List.getElem?_cons_zero, Option.some.injEq] at hi
      subst hi
      have hnot := (List.nodup_cons.mp hnd).1
      refine .cons hab ?_
      clear ih
      have : ∀ z ∈ xs, z ≠ x := fun z hz h => hnot (h ▸ hz)
      refine List.Forall₂.imp (fun _ _ h => h) ?_
      induction hs with
      | nil => exact .nil
      | @cons x' y' xs' ys' hxy' hs' ih' =>
        refine .cons (hne x' y' (by simp) (this x' (by simp)) hxy') (ih' ?_ ?_ ?_ ?_)
        · exact List.nodup_cons.mpr ⟨fun h => hnot (by simp [h]),
            (List.nodup_cons.mp (List.nodup_cons.mp hnd).2).2⟩
        · intro u v hu; exact hne u v (by rcases List.mem_cons.mp hu with rfl | hu <;> simp [*])
        · exact fun h => hnot (by simp [h])
        · exact fun z hz => this z (by simp [hz])
    | succ i =>
      simp only [List.getElem?_cons_succ] at hi
      have hmem := List.mem_of_getElem? hi
      have hxa : x ≠ a := fun h => (List.nodup_cons.mp hnd).1 (h ▸ hmem)
      exact .cons (hne x y (by simp) hxa hxy)
        (ih hi (List.nodup_cons.mp hnd).2 fun u v hu => hne u v (by simp [hu]))

theorem forall₂_append' {α β : Type} {R : α → β → Prop} {a c : List α} {b d : List β} (h : List.Forall₂ R a b)
    (h' : List.Forall₂ R c d) : List.Forall₂ R (a ++ c) (b ++ d) := by
  induction h with
  | nil => exact h'
  | cons hab _ ih => exact .cons hab ih

/-! ## The relation -/

/-- The reference denotes an entry object with this content. -/
def EntryIs (es : List EntryObj) (r : ℕ) (v : EntryVal) : Prop := ∃ o : EntryObj, es[r]? = some o ∧ o.toVal = v

theorem EntryIs.grow {es es' : List EntryObj} {r : ℕ} {v : EntryVal} (h : EntryIs es r v) (hg : Grow es es') :
    EntryIs es' r v := by
  obtain ⟨o, h1, rfl⟩ := h
  exact hg r o h1

theorem valsOf_forall₂ {es : List EntryObj} {rs : List ℕ} {vs : List EntryVal}
    (h : List.Forall₂ (EntryIs es) rs vs) : valsOf es rs = vs := by
  induction h with
  | nil => rfl
  | cons h1 _ ih =>
    obtain ⟨o, h1, rfl⟩ := h1
    rw [valsOf_cons h1, ih]

theorem forall₂_valsOf {es : List EntryObj} {rs : List ℕ} (h : ∀ r ∈ rs, r < es.length) :
    List.Forall₂ (EntryIs es) rs (valsOf es rs) := by
  induction rs with
  | nil => exact .nil
  | cons r rs ih =>
    have hr := List.getElem?_eq_getElem (h r (by simp))
    rw [valsOf_cons hr]
    exact .cons ⟨_, hr, rfl⟩ (ih fun x hx => h x (by simp [hx]))

theorem forall₂_lt {es : List EntryObj} {rs : List ℕ} {vs : List EntryVal}
    (h : List.Forall₂ (EntryIs es) rs vs) : ∀ r ∈ rs, r < es.length := by
  intro r hr
  obtain ⟨i, hi⟩ := List.mem_iff_getElem?.mp hr
  rcases forall₂_getElem? h i with ⟨h1, -⟩ | ⟨a, b, h1, -, o, h2, -⟩
  · rw [hi] at h1; cases h1
  · rw [hi] at h1; cases h1
    exact (List.getElem?_eq_some_iff.mp h2).1

/-- The client's objects represent the plain lists. -/
structure Rel (c : Client) (p : Plain) : Prop where
  wf : c.world.WF 0
  exact : ExactEs c.world.entries
  coh : Coh (· ∈ c.seqs) c.world
  ents : List.Forall₂ (EntryIs c.world.entries) c.entries p.entries
  seqs : List.Forall₂ (fun r v => c.world.view r = some v) c.seqs p.seqs
  nodup : c.seqs.Nodup
  pow : ∀ v ∈ p.seqs, ∃ n, v.dimension = 2 ^ n

theorem Rel.seq_lt {c : Client} {p : Plain} (h : Rel c p) {t : ℕ} (ht : t ∈ c.seqs) : t < c.world.seqs.length := by
  obtain ⟨i, hi⟩ := List.mem_iff_getElem?.mp ht
  rcases forall₂_getElem? h.seqs i with ⟨h1, -⟩ | ⟨a, b, h1, -, h2⟩
  · rw [hi] at h1; cases h1
  · rw [hi] at h1; cases h1
    obtain ⟨o, ho, -⟩ := view_eq_some.mp h2
    exact (List.getElem?_eq_some_iff.mp ho).1

/-- One sequence object was changed. -/
theorem Rel.step {c : Client} {p : Plain} (h : Rel c p) {s r : ℕ} {w' : World} {o o' : SeqObj}
    (hs : c.seqs[s]? = some r) (ho : c.world.seqs[r]? = some o) (st : Step 0 c.world w' r o o')
    (hp : ∀ n, o'.dimension = 2 ^ n → ProdOk w'.entries n o') {v' : SeqView} (hv : viewOf w'.entries o' = v') :
    Rel { c with world := w' } { p with seqs := p.seqs.set s v' } where
  wf := st.wf h.wf
  exact := st.exact h.exact
  coh := st.coh h.wf ho h.coh fun _ => hp
  ents := h.ents.imp fun _ _ he => he.grow st.grow
  seqs := by
    refine forall₂_set h.seqs hs h.nodup (view_eq_some.mpr ⟨o', st.get ho, hv.symm⟩) ?_
    intro x y _ hx hxy
    exact st.view_ne h.wf hx hxy
  nodup := h.nodup
  pow := by
    intro v hv'
    rcases List.mem_or_eq_of_mem_set hv' with hm | rfl
    · exact h.pow v hm
    · rcases forall₂_getElem? h.seqs s with ⟨h1, -⟩ | ⟨a, b, h1, h2, h3⟩
      · rw [hs] at h1; cases h1
      · rw [hs] at h1; cases h1
        obtain ⟨x, hx, rfl⟩ := view_eq_some.mp h3
        rw [ho] at hx; cases hx
        obtain ⟨n, hn⟩ := h.pow _ (List.mem_of_getElem? h2)
        exact ⟨n, by rw [← hv]; exact st.dim.trans hn⟩

/-- Objects were added. -/
theorem Rel.ext {c : Client} {p : Plain} (h : Rel c p) {w' : World} (he : Ext 0 c.world w')
    (hex : ExactEs w'.entries) (hcoh : Coh (· ∈ c.seqs) w') {ne ns : List ℕ} {nv : List EntryVal}
    {nsv : List SeqView} (h1 : List.Forall₂ (EntryIs w'.entries) ne nv)
    (h2 : List.Forall₂ (fun r v => w'.view r = some v) ns nsv) (h3 : (c.seqs ++ ns).Nodup)
    (h4 : ∀ v ∈ nsv, ∃ n, v.dimension = 2 ^ n) (h5 : Coh (· ∈ ns) w') :
    Rel ⟨w', c.entries ++ ne, c.seqs ++ ns⟩ ⟨p.entries ++ nv, p.seqs ++ nsv⟩ where
  wf := he.wf
  exact := hex
  coh := by
    intro t o ht
    rcases List.mem_append.mp ht with ht | ht
    · exact hcoh t o ht
    · exact h5 t o ht
  ents := forall₂_append' (h.ents.imp fun _ _ x => x.grow he.grow) h1
  seqs := forall₂_append' (h.seqs.imp fun _ _ x => he.view h.wf x) h2
  nodup := h3
  pow := by
    intro v hv
    rcases List.mem_append.mp hv with hv | hv
    · exact h.pow v hv
    · exact h4 v hv

/-- Nothing but caches changed. -/
theorem Rel.quiet {c : Client} {p : Plain} (h : Rel c p) {w' : World} (he : Ext 0 c.world w')
    (hex : ExactEs w'.entries) (hcoh : Coh (· ∈ c.seqs) w') : Rel { c with world := w' } p := by
  have := h.ext he hex hcoh (ne := []) (ns := []) (nv := []) (nsv := []) .nil .nil (by simpa using h.nodup)
    (by simp) (fun _ _ h => by simp at h)
  simpa using this

theorem Coh.fresh {w : World} {t : ℕ} (h : ∀ o, w.seqs[t]? = some o → ∀ n, o.dimension = 2 ^ n →
    ProdOk w.entries n o) : Coh (· ∈ [t]) w := by
  intro t' o ht
  rw [List.mem_singleton] at ht; subst ht
  exact h o

theorem fits_iff {e : EntryVal} {n : ℕ} : Plain.fits (2 ^ n) e ↔ e.Fits n := by
  unfold Plain.fits EntryVal.Fits
  refine forall_congr' fun q => forall_congr' fun _ => ?_
  rw [Nat.pow_le_pow_iff_right (by norm_num)]; exact Nat.succ_le_iff

theorem fits_iff' {e : EntryVal} (he : e.WF) {n : ℕ} : Plain.fits (2 ^ n) e ↔ FitsDim e (2 ^ n) := by
  rw [fits_iff]
  exact ⟨fun h => he.fitsDim h, fun h => h.fits⟩

/-! ## One call -/

theorem Client.call_eq {α : Type} {c : Client} {m : PyM World α} {obs : α → World → Client.Obs}
    {newE newS : α → List ℕ} :
    (∀ a w, m c.world = (.ok a, w) → c.call m obs newE newS =
      (.ok (obs a w), ⟨w, c.entries ++ newE a, c.seqs ++ newS a⟩)) ∧
    (∀ e w, m c.world = (.error e, w) → c.call m obs newE newS = (.error e, { c with world := w })) := by
  unfold Client.call
  constructor <;> intro a w h <;> rw [h]

/-- Result and state of a call agree with the specification. -/
def StepOk (x : Except PyErr Client.Obs × Client) (y : Except PyErr Plain.Obs × Plain) : Prop :=
  SameResult x.1 y.1 ∧ Rel x.2 y.2

/-- The result of a call, from what is known about the code it runs. -/
theorem call_wp {α : Type} {c : Client} {m : PyM World α} {obs : α → World → Client.Obs}
    {newE newS : α → List ℕ} {Q : Except PyErr α → World → Prop} (h : Wp m Q c.world)
    {y : Except PyErr Plain.Obs × Plain}
    (hok : ∀ a w, Q (.ok a) w → StepOk (.ok (obs a w), ⟨w, c.entries ++ newE a, c.seqs ++ newS a⟩) y)
    (herr : ∀ e w, Q (.error e) w → StepOk (.error e, { c with world := w }) y) :
    StepOk (c.call m obs newE newS) y := by
  unfold Wp at h
  unfold Client.call
  rcases hm : m c.world with ⟨e | a, w⟩ <;> rw [hm] at h
  · exact herr e w h
  · exact hok a w h

theorem stepOk_dangling {c : Client} {p : Plain} (h : Rel c p) :
    StepOk (.error .dangling, c) (.error .dangling, p) := ⟨rfl, h⟩

/-- Dispatch on a sequence handle. -/
theorem stepOk_seq {c : Client} {p : Plain} (h : Rel c p) (s : ℕ) {f : ℕ → Except PyErr Client.Obs × Client}
    {g : SeqView → Except PyErr Plain.Obs × Plain}
    (hfg : ∀ r o n, c.seqs[s]? = some r → c.world.seqs[r]? = some o → p.seqs[s]? = some (viewOf c.world.entries o) →
      o.dimension = 2 ^ n → Exact0 0 n c.world o → StepOk (f r) (g (viewOf c.world.entries o))) :
    StepOk (Client.with_ (c.seqs[s]?) c f) (Plain.with_ (p.seqs[s]?) p g) := by
  rcases forall₂_getElem? h.seqs s with ⟨h1, h2⟩ | ⟨r, v, h1, h2, h3⟩
  · rw [h1, h2]; exact stepOk_dangling h
  · obtain ⟨o, ho, rfl⟩ := view_eq_some.mp h3
    obtain ⟨n, hn⟩ := h.pow _ (List.mem_of_getElem? h2)
    rw [h1, h2]
    exact hfg r o n h1 ho h2 hn (h.coh.exact0 h.exact (List.mem_of_getElem? h1) ho hn)

/-- Dispatch on an entry handle. -/
theorem stepOk_entry {c : Client} {p : Plain} (h : Rel c p) (e : ℕ) {f : ℕ → Except PyErr Client.Obs × Client}
    {g : EntryVal → Except PyErr Plain.Obs × Plain}
    (hfg : ∀ r x, c.world.entries[r]? = some x → x.toVal.WF → x.toVal.Exact → StepOk (f r) (g x.toVal)) :
    StepOk (Client.with_ (c.entries[e]?) c f) (Plain.with_ (p.entries[e]?) p g) := by
  rcases forall₂_getElem? h.ents e with ⟨h1, h2⟩ | ⟨r, v, h1, h2, x, h3, rfl⟩
  · rw [h1, h2]; exact stepOk_dangling h
  · rw [h1, h2]
    exact hfg r x h3 (h.wf.entries x (List.mem_of_getElem? h3)).wf (h.exact x (List.mem_of_getElem? h3))

theorem Rel.congr {c c' : Client} {p : Plain} (h : Rel c p) (hc : c' = c) : Rel c' p := hc ▸ h

/-- A change of the list of entries. -/
theorem stepOk_change {c : Client} {p : Plain} (h : Rel c p) {s r n : ℕ} {o : SeqObj}
    (hs : c.seqs[s]? = some r) (ho : c.world.seqs[r]? = some o) (hx : Exact0 0 n c.world o)
    {b : Bool} {upd : List ℕ} {m : PyM World Unit} {newVals : List EntryVal}
    (hm : Wp m (fun res w' => ∃ o', ModPost 0 c.world r o b upd res w' o') c.world)
    (hupd : valsOf c.world.entries upd = newVals) (hlt : ∀ x ∈ upd, x < c.world.entries.length) :
    StepOk (c.call m (fun _ _ => .unit) (fun _ => []) (fun _ => []))
      (p.change s (viewOf c.world.entries o) b newVals) := by
  have pow : ∀ o' : SeqObj, o'.dimension = o.dimension → ∀ k, o'.dimension = 2 ^ k → k = n := by
    intro o' hd k hk
    rw [hd, hx.dim] at hk
    exact (Nat.pow_right_injective (le_refl 2) hk).symm
  unfold Plain.change
  refine call_wp hm ?_ ?_
  · rintro a w' ⟨o', h1, h2⟩
    cases harr : o.isArray with
    | true => exact absurd rfl ((h2 harr).fail)
    | false =>
      have hmp := h1 harr
      simp only [viewOf, harr, Bool.false_eq_true, if_false]
      refine ⟨trivial, ?_⟩
      have := h.step hs ho hmp.step (v' := ⟨o.dimension, false, newVals,
        if b then some (valsOf c.world.entries o.entries) else o.previousEntries.map (valsOf c.world.entries)⟩)
        (fun k hk => by
          rw [pow o' hmp.step.dim k hk]; exact (hmp.exact n hx).2) (by
          unfold viewOf
          rw [hmp.undo, hmp.step.dim, hmp.step.arr, harr, hmp.ok rfl, valsOf_grow hlt hmp.step.grow, hupd])
      simpa using this
  · rintro e w' ⟨o', h1, h2⟩
    cases harr : o.isArray with
    | true =>
      have hmp := h2 harr
      simp only [viewOf, harr, if_true]
      have hee := (hmp.exact n hx).1
      simp only [Except.error.injEq] at hee
      refine ⟨hee, ?_⟩
      refine h.step hs ho hmp.step (fun k hk => by
          rw [pow o' hmp.step.dim k hk]; exact (hmp.exact n hx).2) ?_
      unfold viewOf
      rw [hmp.undo, hmp.step.dim, hmp.step.arr, harr, hmp.entries, (h.wf.seq ho).entries.vals_grow hmp.step.grow]
    | false => exact absurd ((h1 harr).exact n hx).1 (by simp)

theorem stepOk_append {c : Client} {p : Plain} (h : Rel c p) (s e : ℕ) (b : Bool)
    {m : ℕ → ℕ → PyM World Unit} {upd : List ℕ → ℕ → List ℕ} {updV : List EntryVal → EntryVal → List EntryVal}
    (hm : ∀ r r' o x, c.world.seqs[r]? = some o → c.world.entries[r']? = some x →
      Wp (m r r') (fun res w' => ∃ o', AppendPost 0 c.world r o x b (upd o.entries r') res w' o') c.world)
    (hupd : ∀ rs r' x, c.world.entries[r']? = some x →
      valsOf c.world.entries (upd rs r') = updV (valsOf c.world.entries rs) x.toVal)
    (hmem : ∀ rs r' x, x ∈ upd rs r' → x = r' ∨ x ∈ rs) :
    StepOk (Client.with_ (c.seqs[s]?) c fun s => Client.with_ (c.entries[e]?) c fun e =>
        c.call (m s e) (fun _ _ => .unit) (fun _ => []) (fun _ => []))
      (Plain.with_ (p.seqs[s]?) p fun v => Plain.with_ (p.entries[e]?) p fun g =>
        open Classical in
        if Plain.fits v.dimension g then p.change s v b (updV v.entries g) else (.error .assertion, p)) := by
  refine stepOk_seq h s fun r o n hs ho hp hdim hx => stepOk_entry h e fun r' x hx' hwf hex => ?_
  have hw := hm r r' o x ho hx'
  have hiff : Plain.fits (viewOf c.world.entries o).dimension x.toVal ↔ FitsDim x.toVal o.dimension := by
    show Plain.fits o.dimension x.toVal ↔ _
    rw [hdim]; exact fits_iff' hwf
  by_cases hf : FitsDim x.toVal o.dimension
  · rw [if_pos (hiff.mpr hf)]
    refine stepOk_change h hs ho hx (hw.mono fun res w' ⟨o', h'⟩ => ⟨o', h'.accept hf⟩) (hupd _ _ _ hx') ?_
    intro y hy
    rcases hmem _ _ _ hy with rfl | hy
    · exact (List.getElem?_eq_some_iff.mp hx').1
    · exact (h.wf.seq ho).entries.lt y hy
  · rw [if_neg fun h' => hf (hiff.mp h')]
    refine call_wp hw ?_ ?_
    · rintro a w' ⟨o', h'⟩
      exact absurd (h'.reject hf).1 (by simp)
    · rintro e w' ⟨o', h'⟩
      obtain ⟨h1, h2, -⟩ := h'.reject hf
      cases h1
      exact ⟨rfl, by rw [h2]; exact h⟩

theorem stepOk_remove {c : Client} {p : Plain} (h : Rel c p) (s : ℕ) (b : Bool)
    {m : ℕ → PyM World Unit} {upd : List ℕ → List ℕ} {updV : List EntryVal → List EntryVal}
    (hm : ∀ r o, c.world.seqs[r]? = some o →
      Wp (m r) (fun res w' => ∃ o', RemovePost 0 c.world r o b (upd o.entries) res w' o') c.world)
    (hupd : ∀ rs, (∀ x ∈ rs, x < c.world.entries.length) →
      valsOf c.world.entries (upd rs) = updV (valsOf c.world.entries rs))
    (hmem : ∀ rs x, x ∈ upd rs → x ∈ rs) :
    StepOk (Client.with_ (c.seqs[s]?) c fun s =>
        c.call (m s) (fun _ _ => .unit) (fun _ => []) (fun _ => []))
      (Plain.with_ (p.seqs[s]?) p fun v =>
        open Classical in
        if v.entries = [] then (.ok .unit, p) else p.change s v b (updV v.entries)) := by
  refine stepOk_seq h s fun r o n hs ho hp hdim hx => ?_
  have hw := hm r o ho
  have hlt := (h.wf.seq ho).entries.lt
  have hiff : (viewOf c.world.entries o).entries = [] ↔ o.entries = [] := by
    show valsOf c.world.entries o.entries = [] ↔ _
    rw [← List.length_eq_zero_iff, valsOf_length hlt, List.length_eq_zero_iff]
  by_cases he : o.entries = []
  · rw [if_pos (hiff.mpr he)]
    refine call_wp hw ?_ ?_
    · rintro a w' ⟨o', h'⟩
      obtain ⟨-, h2, -⟩ := h'.empty he
      refine ⟨trivial, ?_⟩
      rw [h2]; simpa using h
    · rintro e w' ⟨o', h'⟩
      exact absurd (h'.empty he).1 (by simp)
  · rw [if_neg fun h' => he (hiff.mp h')]
    exact stepOk_change h hs ho hx (hw.mono fun res w' ⟨o', h'⟩ => ⟨o', h'.some he⟩) (hupd _ hlt)
      fun y hy => hlt y (hmem _ y hy)

theorem valsOf_tail {es : List EntryObj} {rs : List ℕ} (h : ∀ r ∈ rs, r < es.length) :
    valsOf es rs.tail = (valsOf es rs).tail := by
  cases rs with
  | nil => rfl
  | cons r rs => rw [valsOf_cons (List.getElem?_eq_getElem (h r (by simp)))]; rfl

theorem valsOf_dropLast {es : List EntryObj} {rs : List ℕ} (h : ∀ r ∈ rs, r < es.length) :
    valsOf es rs.dropLast = (valsOf es rs).dropLast := by
  rw [List.dropLast_eq_take, List.dropLast_eq_take, valsOf_length h]
  generalize rs.length - 1 = k
  induction rs generalizing k with
  | nil => simp
  | cons r rs ih =>
    have hr := List.getElem?_eq_getElem (h r (by simp))
    cases k with
    | zero => simp
    | succ k =>
      rw [valsOf_cons hr, List.take_succ_cons, List.take_succ_cons, valsOf_cons hr,
        ih (fun x hx => h x (by simp [hx]))]

theorem valsOf_invert {w w' : World} {rs : List ℕ} {f : ℕ → ℕ} (hrs : ∀ r ∈ rs, r < w.entries.length)
    (he : ExactEs w.entries) (hn : ∀ r ∈ rs, rs.count r = 1)
    (h : ∀ (r : ℕ) (x : EntryObj), r ∈ rs → w.entries[r]? = some x → ∃ x' : EntryObj,
      w'.entries[f r]? = some x' ∧ InvN 0 (rs.count r) x.toVal x'.toVal) :
    valsOf w'.entries (rs.map f) = (valsOf w.entries rs).map EntryVal.dagger := by
  unfold valsOf
  rw [List.filterMap_map, List.map_filterMap]
  apply List.filterMap_congr
  intro r hr
  have hx := List.getElem?_eq_getElem (hrs r hr)
  obtain ⟨x', h1, h2⟩ := h r _ hr hx
  have h3 := invN_exact (he _ (List.mem_of_getElem? hx)) h2
  rw [hn r hr] at h3
  simp only [Function.comp, h1, hx, Option.map_some]
  rw [h3]; simp

theorem circuit_inverse {n : ℕ} {es : List EntryVal} :
    circuit n ((es.map EntryVal.dagger).reverse) = (circuit n es)ᴴ := by
  induction es with
  | nil => simp [circuit]
  | cons e es ih =>
    rw [List.map_cons, List.reverse_cons, circuit_append, circuit_singleton, ih, circuit, conjTranspose_mul,
      op_dagger]

theorem refsOk_iff {es : List EntryObj} {rs : List ℕ} {D : ℕ} (h : ∀ r ∈ rs, r < es.length) :
    RefsOk es D rs ↔ ∀ v ∈ valsOf es rs, FitsDim v D := by
  constructor
  · intro hr v hv
    obtain ⟨r, hm, x, hx, rfl⟩ := mem_valsOf.mp hv
    obtain ⟨x', hx', hf⟩ := hr r hm
    rw [hx] at hx'; cases hx'; exact hf
  · intro hv r hr
    have hx := List.getElem?_eq_getElem (h r hr)
    exact ⟨_, hx, hv _ (mem_valsOf.mpr ⟨r, hr, _, hx, rfl⟩)⟩

theorem forall₂_view {w : World} {rs : List ℕ} {vs : List SeqView}
    (h : List.Forall₂ (fun r v => w.view r = some v) rs vs) :
    (∀ r ∈ rs, ∃ o, w.seqs[r]? = some o) ∧ (∀ D, SeqsOk w D rs ↔ ∀ v ∈ vs, v.dimension = D) ∧
      flatVals w rs = (vs.map SeqView.entries).flatten := by
  induction h with
  | nil => exact ⟨by simp, fun D => by simp [SeqsOk], rfl⟩
  | @cons r v rs vs hrv _ ih =>
    obtain ⟨i1, i2, i3⟩ := ih
    obtain ⟨o, ho, rfl⟩ := view_eq_some.mp hrv
    refine ⟨?_, fun D => ?_, ?_⟩
    · intro x hx
      rcases List.mem_cons.mp hx with rfl | hx
      · exact ⟨o, ho⟩
      · exact i1 x hx
    · rw [List.forall_mem_cons, ← i2 D]
      constructor
      · intro h
        refine ⟨?_, fun x hx => h x (by simp [hx])⟩
        obtain ⟨o', ho', hd⟩ := h r (by simp)
        rw [ho] at ho'; cases ho'; exact hd
      · rintro ⟨h1, h2⟩ x hx
        rcases List.mem_cons.mp hx with rfl | hx
        · exact ⟨o, ho, h1⟩
        · exact h2 x hx
    · rw [flatVals_cons ho, i3]; rfl

theorem ExactEs.append {es : List EntryObj} (h : ExactEs es) {x : EntryObj} (hx : x.toVal.Exact) :
    ExactEs (es ++ [x]) := by
  intro o ho
  rcases List.mem_append.mp ho with ho | ho
  · exact h o ho
  · rw [List.mem_singleton] at ho; subst ho; exact hx

theorem entryNew_ok {u : Unitary} {qs : List ℤ} {v : EntryVal} (h : EntryVal.new u qs = .ok v) :
    v.WF ∧ v.unitary = u := by
  unfold EntryVal.new at h
  simp only [assertE_bind_eq_ok, raiseUnless_bind_eq_ok, pure_except, Except.ok.injEq] at h
  obtain ⟨h1, h2, h3, h4, rfl⟩ := h
  refine ⟨⟨?_, ?_, ?_⟩, rfl⟩
  · refine List.Nodup.map_on ?_ h1
    intro a ha b hb hab
    have := h4 a ha; have := h4 b hb
    omega
  · simpa using h3
  · simp only [List.length_map]; exact h2.symm

theorem entryNew_exact {u : Unitary} {qs : List ℤ} {v : EntryVal} (h : EntryVal.new u qs = .ok v) {d : ℕ}
    (hu : u.Exact d) : v.Exact := by
  obtain ⟨h1, h2⟩ := entryNew_ok h
  have hd := h1.dim
  unfold EntryVal.getDimension at hd
  rw [h2, hu.dim] at hd
  unfold EntryVal.Exact
  rw [h2, ← hd]; exact hu

theorem log2_pow (n : ℕ) : Nat.log 2 (2 ^ n) = n := Nat.log_pow (by norm_num) n

theorem Caches.ext {τ : Arith} {w w' : World} (hw : w.WF τ) (h : Caches τ w w') : Ext τ w w' := by
  have e : w'.seqs = w.seqs := by rw [h.eq]
  refine ⟨⟨h.ok, fun o ho => (hw.seqs o (by rwa [e] at ho)).grow h.grow⟩, h.grow, by rw [h.eq], by rw [h.eq], fun s o ho => ⟨o, by rwa [e], .refl o⟩⟩

/-- Every call refines its specification. -/
theorem step_refines {c : Client} {p : Plain} (h : Rel c p) {op : Op} (hq : op.OnQubits)
    (hi : op.NoSharedInverse c) : StepOk (c.step 0 op) (p.step op) := by
  cases op with
  | newEntry u qs =>
    obtain ⟨d, hu⟩ := hq
    simp only [Client.step, Plain.step]
    unfold Entry.new
    rcases hv : EntryVal.new u qs with err | v
    · rw [(Client.call_eq (m := _)).2 err c.world (show (PyM.lift (Except.error err) >>= fun v => allocEntry ⟨v, []⟩) c.world = _ from rfl)]
      exact ⟨rfl, h⟩
    · rw [(Client.call_eq).1 c.world.entries.length
        { c.world with entries := c.world.entries ++ [⟨v, []⟩] }
        (show (PyM.lift (Except.ok v) >>= fun v => allocEntry ⟨v, []⟩) c.world = _ from rfl)]
      have hok : EntriesOk 0 [(⟨v, []⟩ : EntryObj)] := by
        intro x hx
        rw [List.mem_singleton] at hx; subst hx
        exact ⟨(entryNew_ok hv).1, by simp⟩
      have hext := Ext.appendEntries h.wf hok
      refine ⟨trivial, ?_⟩
      have := h.ext (ne := [c.world.entries.length]) (nv := [v]) (ns := []) (nsv := []) hext
        (h.exact.append (entryNew_exact hv hu)) (hext.coh_of_seqs h.wf rfl h.coh)
        (.cons ⟨⟨v, []⟩, by simp, rfl⟩ .nil) .nil (by simpa using h.nodup) (by simp)
        (fun _ _ h => by simp at h)
      simpa using this
  | newSeq D arr es =>
    obtain ⟨n, rfl⟩ := hq
    simp only [Client.step, Plain.step]
    rcases forall₂_getAll h.ents es with ⟨h1, h2⟩ | ⟨rs, vs, h1, h2, h3⟩
    · rw [h1, h2]; exact stepOk_dangling h
    rw [h1, h2]
    simp only [Client.with_, Plain.with_]
    have hlt := forall₂_lt h3
    have hvals := valsOf_forall₂ h3
    have hiff : (∀ v ∈ vs, Plain.fits (2 ^ n) v) ↔ RefsOk c.world.entries (2 ^ n) rs := by
      rw [refsOk_iff hlt, hvals]
      refine forall_congr' fun v => forall_congr' fun hv => ?_
      rw [← hvals] at hv
      obtain ⟨r, hm, x, hx, rfl⟩ := mem_valsOf.mp hv
      exact fits_iff' (h.wf.entries x (List.mem_of_getElem? hx)).wf
    by_cases hf : RefsOk c.world.entries (2 ^ n) rs
    · rw [if_pos (hiff.mpr hf)]
      refine call_wp (new_wp h.wf hlt) ?_ ?_
      · rintro a w' ⟨-, h'⟩
        obtain ⟨rs', ha, hext, hseq, hcop⟩ := h' hf
        cases ha
        refine ⟨trivial, ?_⟩
        have hget : w'.seqs[c.world.seqs.length]? = some ⟨2 ^ n, arr, rs', none, none, none⟩ := by
          rw [hseq, List.getElem?_append_right (le_refl _)]; simp
        have hcoh : Coh (· ∈ c.seqs) w' := by
          intro t o ht ho k hk
          rw [hseq, List.getElem?_append_left (h.seq_lt ht)] at ho
          exact (h.coh t o ht ho k hk).grow (h.wf.seq ho) hext.grow
        have := h.ext (ne := []) (nv := []) (ns := [c.world.seqs.length]) (nsv := [⟨2 ^ n, arr, vs, none⟩])
          hext (hcop.nonew.forall h.exact) hcoh .nil
          (.cons (view_eq_some.mpr ⟨_, hget, by simp [viewOf, hcop.vals, hvals]⟩) .nil)
          (by
            rw [List.nodup_append]
            refine ⟨h.nodup, by simp, ?_⟩
            intro a ha b hb hab
            rw [List.mem_singleton] at hb
            have := h.seq_lt ha
            omega)
          (by simp) (Coh.fresh fun o ho k hk => by
            rw [hget] at ho; cases ho
            exact ⟨fun _ h => (by cases h), fun _ h => (by cases h), fun _ => rfl⟩)
        simpa using this
      · rintro e w' ⟨-, h'⟩
        obtain ⟨rs', ha, -⟩ := h' hf
        cases ha
    · rw [if_neg fun h' => hf (hiff.mp h')]
      refine call_wp (new_wp h.wf hlt) ?_ ?_
      · rintro a w' ⟨h', -⟩
        exact absurd (h' hf).1 (by simp)
      · rintro e w' ⟨h', -⟩
        obtain ⟨h4, h5⟩ := h' hf
        cases h4
        exact ⟨rfl, by rw [h5]; exact h⟩
  | appendFirst s e b =>
    exact stepOk_append h s e b (upd := fun rs r => r :: rs) (updV := fun vs v => v :: vs)
      (fun r r' o x ho hx => appendFirst_wp h.wf ho hx b) (fun rs r' x hx => valsOf_cons hx rs)
      (fun rs r' x hx => List.mem_cons.mp hx)
  | appendLast s e b =>
    exact stepOk_append h s e b (upd := fun rs r => rs ++ [r]) (updV := fun vs v => vs ++ [v])
      (fun r r' o x ho hx => appendLast_wp h.wf ho hx b)
      (fun rs r' x hx => by rw [valsOf_append, valsOf_cons hx, valsOf_nil])
      (fun rs r' x hx => by
        rcases List.mem_append.mp hx with hx | hx
        · exact .inr hx
        · exact .inl (List.mem_singleton.mp hx))
  | removeFirst s b =>
    exact stepOk_remove h s b (upd := List.tail) (updV := List.tail) (fun r o ho => removeFirst_wp h.wf ho b)
      (fun rs hrs => valsOf_tail hrs) (fun rs x hx => List.mem_of_mem_tail hx)
  | removeLast s b =>
    exact stepOk_remove h s b (upd := List.dropLast) (updV := List.dropLast) (fun r o ho => removeLast_wp h.wf ho b)
      (fun rs hrs => valsOf_dropLast hrs) (fun rs x hx => List.mem_of_mem_dropLast hx)
  | undo s =>
    simp only [Client.step, Plain.step]
    refine stepOk_seq h s fun r o n hs ho hp hdim hx => ?_
    have hpow : ∀ o' : SeqObj, o'.dimension = o.dimension → ∀ k, o'.dimension = 2 ^ k → k = n := by
      intro o' hd k hk
      rw [hd, hx.dim] at hk
      exact (Nat.pow_right_injective (le_refl 2) hk).symm
    rcases hprev : o.previousEntries with _ | ps
    · simp only [viewOf, hprev, Option.map_none]
      refine call_wp (undo_wp h.wf ho) ?_ ?_
      · rintro a w' ⟨o', -, h1, -, -⟩
        exact absurd (h1 hprev).1 (by simp)
      · rintro e w' ⟨o', -, h1, -, -⟩
        obtain ⟨h2, h3, -⟩ := h1 hprev
        cases h2
        exact ⟨rfl, by rw [h3]; exact h⟩
    · simp only [viewOf, hprev, Option.map_some]
      refine call_wp (undo_wp h.wf ho) ?_ ?_
      · rintro a w' ⟨o', st, -, h2, h3⟩
        obtain ⟨-, h4, rfl⟩ := h2 ps hprev
        refine ⟨trivial, ?_⟩
        have := h.step hs ho st (fun k hk => by rw [hpow _ rfl k hk]; exact h3 n hx) rfl
        simpa [viewOf, h4] using this
      · rintro e w' ⟨o', -, -, h2, -⟩
        exact absurd (h2 ps hprev).1 (by simp)
  | product s =>
    simp only [Client.step, Plain.step]
    refine stepOk_seq h s fun r o n hs ho hp hdim hx => ?_
    refine call_wp (product_wp h.wf ho) ?_ ?_
    · rintro u w' ⟨o', hpp⟩
      obtain ⟨q, h1, h2, h3, h4⟩ := hpp.exact n hx
      cases h1
      refine ⟨?_, ?_⟩
      · simp only [viewOf]
        rw [hdim, log2_pow]
        exact ⟨h2.rows, h2.cols, h3⟩
      · have hext := hpp.step.ext h.wf ho hpp.same
        have hcoh := hpp.step.coh h.wf ho h.coh fun _ k hk => by
          have : k = n := by
            rw [hpp.step.dim, hdim] at hk
            exact (Nat.pow_right_injective (le_refl 2) hk).symm
          rw [this]; exact h4
        simpa using h.quiet hext (hpp.step.exact h.exact) hcoh
    · rintro e w' ⟨o', hpp⟩
      obtain ⟨q, h1, -⟩ := hpp.exact n hx
      cases h1
  | inverse s =>
    simp only [Client.step, Plain.step]
    refine stepOk_seq h s fun r o n hs ho hp hdim hx => ?_
    have hnd : o.entries.Nodup := hi r o hs ho
    refine call_wp (inverse_wp h.wf ho) ?_ ?_
    · intro t w' hpost
      obtain ⟨rfl, harr, q, q', f, hobj, hq, hq', hinj, hfresh, hinv⟩ := hpost.ok t rfl
      simp only [viewOf, harr, Bool.false_eq_true, if_false]
      refine ⟨trivial, ?_⟩
      have hlt := (h.wf.seq ho).entries.lt
      have hvals : valsOf w'.entries (o.entries.map f) = (valsOf c.world.entries o.entries).map EntryVal.dagger :=
        valsOf_invert hlt h.exact (fun a ha => List.count_eq_one_of_mem hnd ha) hinv
      have hvals' : valsOf w'.entries (o.entries.map f).reverse =
          ((valsOf c.world.entries o.entries).map EntryVal.dagger).reverse := by rw [valsOf_reverse, hvals]
      have hqx : q.Exact (2 ^ n) ∧ q.matrix.toMatrix (2 ^ n) = circuit n (valsOf c.world.entries o.entries) := by
        rcases hop : o.product with _ | q0
        · have h1 := hq.2 hop
          have hr := (h.wf.seq ho).entries
          rw [hdim] at h1 hr
          obtain ⟨p1, h2, h3⟩ := freshProduct_exact (refsOk_vals h.wf.entries hr h.exact)
          rw [h2] at h1; cases h1; exact h3
        · rw [hq.1 q0 hop]; exact hx.prod.prod q0 hop
      obtain ⟨q2, h1, h2, h3⟩ := inverse_exact hqx.1
      rw [h1] at hq'; cases hq'
      have := h.ext (ne := []) (nv := []) (ns := [c.world.seqs.length])
          (nsv := [⟨o.dimension, false, ((valsOf c.world.entries o.entries).map EntryVal.dagger).reverse, none⟩])
          hpost.ext (hpost.exactEs rfl h.exact)
          (hpost.coh _ rfl h.exact h.coh fun t ht => h.seq_lt ht) .nil
          (.cons (view_eq_some.mpr ⟨_, hobj, by simp [viewOf, hvals']⟩) .nil)
          (by
            rw [List.nodup_append]
            refine ⟨h.nodup, by simp, ?_⟩
            intro a ha b hb hab
            rw [List.mem_singleton] at hb
            have := h.seq_lt ha
            omega)
          (by simp [hdim]) (Coh.fresh fun o1 ho1 k hk => by
            rw [hobj] at ho1; cases ho1
            have hkn : k = n := by
              simp only at hk
              rw [hdim] at hk
              exact (Nat.pow_right_injective (le_refl 2) hk).symm
            subst hkn
            refine ⟨fun q hq => ?_, fun _ h => (by cases h), fun h => (by cases h)⟩
            cases hq
            refine ⟨h2, ?_⟩
            simp only
            rw [hvals', circuit_inverse, h3, hqx.2])
      simpa using this
    · intro e w' hpost
      cases harr : o.isArray with
      | true =>
        have := hpost.array harr
        cases this
        simp only [viewOf, harr, if_true]
        exact ⟨rfl, h.quiet hpost.ext (hpost.exactEs rfl h.exact)
          (hpost.coh _ rfl h.exact h.coh fun t ht => h.seq_lt ht)⟩
      | false =>
        obtain ⟨t, ht⟩ := hpost.exact n hx harr
        cases ht
  | combine ss =>
    simp only [Client.step, Plain.step]
    rcases forall₂_getAll h.seqs ss with ⟨h1, h2⟩ | ⟨rs, vs, h1, h2, h3⟩
    · rw [h1, h2]; exact stepOk_dangling h
    rw [h1, h2]
    simp only [Client.with_, Plain.with_]
    obtain ⟨hex, hdims, hflat⟩ := forall₂_view h3
    have hmem : ∀ r ∈ rs, r ∈ c.seqs := by
      clear h2 h3 hex hdims hflat hq hi
      induction ss generalizing rs with
      | nil => simp only [getAll, Option.some.injEq] at h1; subst h1; simp
      | cons i is ih =>
        unfold getAll at h1
        split at h1
        · rename_i a as ha has
          simp only [Option.some.injEq] at h1
          subst h1
          intro r hr
          rcases List.mem_cons.mp hr with rfl | hr
          · exact List.mem_of_getElem? ha
          · exact ih as has r hr
        · cases h1
    cases h3 with
    | nil =>
      refine call_wp (combine_wp h.wf hex) ?_ ?_
      · rintro a w' ⟨h', -⟩
        exact absurd (h' fun _ => .inl rfl).1 (by simp)
      · rintro e w' ⟨h', -⟩
        obtain ⟨h4, h5⟩ := h' fun _ => .inl rfl
        cases h4
        exact ⟨rfl, by rw [h5]; exact h⟩
    | @cons r v rs vs hrv htl =>
      simp only
      obtain ⟨o, ho, hvo⟩ := view_eq_some.mp hrv
      have hvmem : v ∈ p.seqs := by
        have hr : r ∈ c.seqs := hmem r (by simp)
        obtain ⟨i, hi'⟩ := List.mem_iff_getElem?.mp hr
        rcases forall₂_getElem? h.seqs i with ⟨h4, -⟩ | ⟨a, b, h4, h5, h6⟩
        · rw [hi'] at h4; cases h4
        · rw [hi'] at h4; cases h4
          rw [hrv] at h6; cases h6
          exact List.mem_of_getElem? h5
      obtain ⟨n, hn⟩ := h.pow v hvmem
      by_cases hd : ∀ v' ∈ v :: vs, v'.dimension = v.dimension
      · rw [if_pos hd]
        have hsd := (hdims v.dimension).mpr hd
        refine call_wp (combine_wp h.wf hex) ?_ ?_
        · rintro t w' ⟨-, h'⟩
          have hpost := h' v.dimension (by simp) hsd
          obtain ⟨rfl, rs', q, hobj, hvals, -, -⟩ := hpost.ok t rfl
          obtain ⟨t', rs2, q2, ht', hobj2, hqe, hqm⟩ := hpost.exact (· ∈ c.seqs) n rfl h.exact h.coh hmem hn
          cases ht'
          rw [hobj] at hobj2; cases hobj2
          refine ⟨trivial, ?_⟩
          have := h.ext (ne := []) (nv := []) (ns := [c.world.seqs.length])
            (nsv := [⟨v.dimension, false, ((v :: vs).map SeqView.entries).flatten, none⟩])
            hpost.ext (hpost.nonew.forall h.exact)
            (hpost.coh _ rfl h.exact h.coh fun t ht => h.seq_lt ht) .nil
            (.cons (view_eq_some.mpr ⟨_, hobj, by simp only [viewOf, hvals, hflat, Option.map_none]⟩) .nil)
            (by
              rw [List.nodup_append]
              refine ⟨h.nodup, by simp, ?_⟩
              intro a ha b hb hab
              rw [List.mem_singleton] at hb
              have := h.seq_lt ha
              omega)
            (by simp [hn]) (Coh.fresh fun o1 ho1 k hk => by
              rw [hobj] at ho1; cases ho1
              have hkn : k = n := by
                simp only at hk
                rw [hn] at hk
                exact (Nat.pow_right_injective (le_refl 2) hk).symm
              subst hkn
              refine ⟨fun q hq => ?_, fun _ h => (by cases h), fun h => (by cases h)⟩
              cases hq
              refine ⟨hqe, ?_⟩
              simp only
              rw [hvals, hqm])
          simpa using this
        · rintro e w' ⟨-, h'⟩
          have hpost := h' v.dimension (by simp) hsd
          obtain ⟨t', rs2, q2, ht', -⟩ := hpost.exact (· ∈ c.seqs) n rfl h.exact h.coh hmem hn
          cases ht'
      · rw [if_neg hd]
        have hnd : ∀ D, r :: rs = [] ∨ ¬ SeqsOk c.world D (r :: rs) := by
          intro D
          right
          rw [hdims D]
          intro hD
          exact hd fun v' hv' => (hD v' hv').trans (hD v (by simp)).symm
        refine call_wp (combine_wp h.wf hex) ?_ ?_
        · rintro a w' ⟨h', -⟩
          exact absurd (h' hnd).1 (by simp)
        · rintro e w' ⟨h', -⟩
          obtain ⟨h4, h5⟩ := h' hnd
          cases h4
          exact ⟨rfl, by rw [h5]; exact h⟩
  | getEntries s =>
    simp only [Client.step, Plain.step]
    refine stepOk_seq h s fun r o n hs ho hp hdim hx => ?_
    refine call_wp (getSequenceEntries_wp h.wf ho) ?_ ?_
    · rintro rs w' ⟨rs', hrs, hext, hseq, hcop⟩
      cases hrs
      refine ⟨hcop.vals, ?_⟩
      have := h.ext (ne := rs) (nv := valsOf c.world.entries o.entries) (ns := []) (nsv := [])
        hext (hcop.nonew.forall h.exact) (hext.coh_of_seqs h.wf hseq h.coh)
        (by rw [← hcop.vals]; exact forall₂_valsOf hcop.lt) .nil (by simpa using h.nodup) (by simp)
        (fun _ _ h => by simp at h)
      simpa [viewOf] using this
    · rintro e w' ⟨rs', hrs, -⟩
      cases hrs
  | getLength s =>
    simp only [Client.step, Plain.step]
    refine stepOk_seq h s fun r o n hs ho hp hdim hx => ?_
    have hlen : Seq.getLength r c.world = (.ok o.entries.length, c.world) := by
      unfold Seq.getLength
      rw [PyM.bind_of_ok (getSeq_some ho)]; rfl
    rw [(Client.call_eq).1 _ _ hlen]
    refine ⟨?_, by simpa using h⟩
    exact (valsOf_length (h.wf.seq ho).entries.lt).symm
  | fullUnitary e D =>
    obtain ⟨n, rfl⟩ := hq
    simp only [Client.step, Plain.step]
    refine stepOk_entry h e fun r x hx hwf hex => ?_
    have key : ∀ res w', (res = x.toVal.fullUnitary 0 (2 ^ n) ∧
        ∃ o', w' = { c.world with entries := c.world.entries.set r o' } ∧ o'.toVal = x.toVal ∧ o'.Ok 0) →
        Rel { c with world := w' } p := by
      rintro res w' ⟨-, o', rfl, hv, hok⟩
      have hg := Grow.set hx hv
      have hext : Ext 0 c.world { c.world with entries := c.world.entries.set r o' } :=
        ⟨⟨h.wf.entries.set hok, fun o ho => (h.wf.seqs o ho).grow hg⟩, hg, rfl, rfl,
          fun _ o ho => ⟨o, ho, .refl o⟩⟩
      exact h.quiet hext ((NoNew.set hx hv).forall h.exact) (hext.coh_of_seqs h.wf rfl h.coh)
    by_cases hf : x.toVal.Fits n
    · rw [if_pos (fits_iff.mpr hf)]
      obtain ⟨u, h1, h2, h3⟩ := fullUnitary_op hwf hf hex
      refine call_wp (getFullUnitary_wp h.wf.entries hx (2 ^ n)) ?_ ?_
      · rintro u' w' hpost
        have := hpost.1
        rw [h1] at this; cases this
        refine ⟨?_, by simpa using key _ w' hpost⟩
        rw [log2_pow]
        exact ⟨h2.rows, h2.cols, h3⟩
      · rintro e w' hpost
        have := hpost.1
        rw [h1] at this; cases this
    · rw [if_neg fun h' => hf (fits_iff.mp h')]
      have herr : x.toVal.fullUnitary 0 (2 ^ n) = .error .assertion := EntryVal.fullUnitary_not_fits hwf hf hex
      refine call_wp (getFullUnitary_wp h.wf.entries hx (2 ^ n)) ?_ ?_
      · rintro u' w' hpost
        have := hpost.1
        rw [herr] at this; cases this
      · rintro e w' hpost
        have := hpost.1
        rw [herr] at this; cases this
        exact ⟨rfl, key _ w' hpost⟩
  | text k fmt s =>
    simp only [Client.step, Plain.step]
    refine stepOk_seq h s fun r o n hs ho hp hdim hx => ?_
    have hr := (h.wf.seq ho).entries
    rw [hdim] at hr
    have hvals := refsOk_vals h.wf.entries hr h.exact
    obtain ⟨ls, hls⟩ := freshLines_exact (f := k.unitary fmt) hvals
    refine call_wp (text_wp h.wf ho k fmt) ?_ ?_
    · rintro t w' ⟨ht, hca⟩
      rw [hdim, hls] at ht
      cases ht
      have hext := hca.ext h.wf
      refine ⟨?_, by simpa using h.quiet hext (hca.nonew.forall h.exact) (hext.coh_of_seqs h.wf (by rw [hca.eq]) h.coh)⟩
      rw [freshLines_line (fun e he => (hvals e he).1) k fmt hls]
      rfl
    · rintro e w' ⟨ht, -⟩
      rw [hdim, hls] at ht
      cases ht

/-- Every program refines its specification. -/
theorem run_refines {c : Client} {p : Plain} (h : Rel c p) (ops : List Op) (hq : ∀ op ∈ ops, op.OnQubits)
    (hi : c.NoSharedInverse 0 ops) :
    List.Forall₂ SameResult (c.run 0 ops).1 (p.run ops).1 ∧ Rel (c.run 0 ops).2 (p.run ops).2 := by
  induction ops generalizing c p with
  | nil => exact ⟨.nil, h⟩
  | cons op ops ih =>
    obtain ⟨h1, h2⟩ := step_refines h (hq op (by simp)) hi.1
    obtain ⟨h3, h4⟩ := ih h2 (fun x hx => hq x (by simp [hx])) hi.2
    exact ⟨.cons h1 h3, h4⟩

theorem rel_start (rng : Rng) : Rel (Client.start rng) ⟨[], []⟩ where
  wf := ⟨by simp [Client.start, EntriesOk], by simp [Client.start]⟩
  exact := by simp [Client.start, ExactEs]
  coh := by intro t o ht; simp [Client.start] at ht
  ents := .nil
  seqs := .nil
  nodup := by simp [Client.start]
  pow := by simp

end Stoq
