import Verif.Proofs.Change

/-! # Applying a random change to the sequence -/

namespace Stoq

open World Compiler

/-- Effect of several mutators in a row on a list-backed sequence: the new list is `new`; unless nothing happened,
`undo` goes back to the list before the first of them. -/
structure BulkPost (τ : Arith) (w : World) (s : ℕ) (o : SeqObj) (first : Bool) (new : List EntryVal)
    (fit : ℕ → Prop) (res : Except PyErr Unit) (w' : World) (o' : SeqObj) : Prop where
  step : Step τ w w' s o o'
  ok : res = .ok () → valsOf w'.entries o'.entries = new
  undo : res = .ok () → o' = o ∧ w' = w ∨ o'.previousEntries.map (valsOf w'.entries) =
    if first then some (valsOf w.entries o.entries) else o.previousEntries.map (valsOf w.entries)
  exact : ∀ n, Exact0 τ n w o → fit n → res = .ok () ∧ ProdOk w'.entries n o'

theorem Exact0.step {τ : Arith} {w w' : World} {s n : ℕ} {o o' : SeqObj} (h : Exact0 τ n w o)
    (st : Step τ w w' s o o') (hp : ProdOk w'.entries n o') : Exact0 τ n w' o' :=
  ⟨h.tau, st.dim.trans h.dim, st.exact h.es, hp⟩

theorem valsOf_mem_fits {es : List EntryObj} {rs : List ℕ} {e : ℕ} {x : EntryObj} (hx : es[e]? = some x)
    {P : EntryVal → Prop} (h : ∀ v ∈ valsOf es (e :: rs), P v) : P x.toVal ∧ ∀ v ∈ valsOf es rs, P v := by
  rw [valsOf_cons hx] at h
  exact ⟨h _ (by simp), fun v hv => h v (by simp [hv])⟩

theorem appendFirstAll_wp {τ : Arith} {s : ℕ} (rs : List ℕ) (first : Bool) (w : World) (o : SeqObj) (hw : w.WF τ)
    (hs : w.seqs[s]? = some o) (ha : o.isArray = false) (hrs : ∀ r ∈ rs, r < w.entries.length) :
    Wp (appendFirstAll τ s first rs) (fun res w' => ∃ o', BulkPost τ w s o first
      ((valsOf w.entries rs).reverse ++ valsOf w.entries o.entries)
      (fun n => ∀ v ∈ valsOf w.entries rs, v.Fits n) res w' o') w := by
  induction rs generalizing first w o with
  | nil =>
    exact Wp.pure ⟨o, .refl hw hs, fun _ => by simp, fun _ => .inl ⟨rfl, rfl⟩, fun n hx _ => ⟨rfl, hx.prod⟩⟩
  | cons e rs ih =>
    unfold appendFirstAll
    have he := List.getElem?_eq_getElem (hrs e (by simp))
    have hrs' : ∀ r ∈ rs, r < w.entries.length := fun r hr => hrs r (by simp [hr])
    generalize w.entries[e]'(hrs e (by simp)) = x at he
    have hxwf := (hw.entries x (List.mem_of_getElem? he)).wf
    refine Wp.bind ((appendFirst_wp hw hs he first).mono ?_)
    rintro res w1 ⟨o1, hpost⟩
    by_cases hfit : FitsDim x.toVal o.dimension
    · have hm := (hpost.accept hfit).1 ha
      rcases res with err | u
      · refine ⟨o1, hm.step, fun h => (by cases h), fun h => (by cases h), fun n hx _ => ?_⟩
        exact absurd (hm.exact n hx).1 (by simp)
      · simp only
        have hw1 := hm.step.wf hw
        have hs1 := hm.step.get hs
        have hlt : ∀ r ∈ rs, r < w1.entries.length := by
          intro r hr
          obtain ⟨y, hy, -⟩ := hm.step.grow r _ (List.getElem?_eq_getElem (hrs' r hr))
          exact (List.getElem?_eq_some_iff.mp hy).1
        refine (ih false w1 o1 hw1 hs1 (hm.step.arr.trans ha) hlt).mono ?_
        rintro res w2 ⟨o2, hb⟩
        have hv1 : valsOf w1.entries rs = valsOf w.entries rs := valsOf_grow hrs' hm.step.grow
        have hent : o1.entries = e :: o.entries := hm.ok rfl
        have hvo : valsOf w1.entries o1.entries = x.toVal :: valsOf w.entries o.entries := by
          obtain ⟨y, hy, hyv⟩ := hm.step.grow e x he
          rw [hent, valsOf_cons hy, hyv, (hw.seq hs).entries.vals_grow hm.step.grow]
        refine ⟨o2, hm.step.trans hb.step, fun h => ?_, fun h => .inr ?_, fun n hx hf => ?_⟩
        · rw [hb.ok h, hv1, hvo, valsOf_cons he]; simp
        · rcases hb.undo h with ⟨rfl, rfl⟩ | h'
          · exact hm.undo
          · rw [h']; simpa using hm.undo
        · obtain ⟨-, hp⟩ := hm.exact n hx
          exact hb.exact n (hx.step hm.step hp) (by rw [hv1]; exact (valsOf_mem_fits he hf).2)
    · obtain ⟨rfl, rfl, rfl⟩ := hpost.reject hfit
      refine ⟨o1, .refl hw hs, fun h => (by cases h), fun h => (by cases h), fun n hx hf => ?_⟩
      refine absurd ?_ hfit
      rw [hx.dim]
      exact hxwf.fitsDim (valsOf_mem_fits he hf).1

theorem appendLastAll_wp {τ : Arith} {s : ℕ} (rs : List ℕ) (first : Bool) (w : World) (o : SeqObj) (hw : w.WF τ)
    (hs : w.seqs[s]? = some o) (ha : o.isArray = false) (hrs : ∀ r ∈ rs, r < w.entries.length) :
    Wp (appendLastAll τ s first rs) (fun res w' => ∃ o', BulkPost τ w s o first
      (valsOf w.entries o.entries ++ valsOf w.entries rs)
      (fun n => ∀ v ∈ valsOf w.entries rs, v.Fits n) res w' o') w := by
  induction rs generalizing first w o with
  | nil =>
    exact Wp.pure ⟨o, .refl hw hs, fun _ => by simp, fun _ => .inl ⟨rfl, rfl⟩, fun n hx _ => ⟨rfl, hx.prod⟩⟩
  | cons e rs ih =>
    unfold appendLastAll
    have he := List.getElem?_eq_getElem (hrs e (by simp))
    have hrs' : ∀ r ∈ rs, r < w.entries.length := fun r hr => hrs r (by simp [hr])
    generalize w.entries[e]'(hrs e (by simp)) = x at he
    have hxwf := (hw.entries x (List.mem_of_getElem? he)).wf
    refine Wp.bind ((appendLast_wp hw hs he first).mono ?_)
    rintro res w1 ⟨o1, hpost⟩
    by_cases hfit : FitsDim x.toVal o.dimension
    · have hm := (hpost.accept hfit).1 ha
      rcases res with err | u
      · refine ⟨o1, hm.step, fun h => (by cases h), fun h => (by cases h), fun n hx _ => ?_⟩
        exact absurd (hm.exact n hx).1 (by simp)
      · simp only
        have hw1 := hm.step.wf hw
        have hs1 := hm.step.get hs
        have hlt : ∀ r ∈ rs, r < w1.entries.length := by
          intro r hr
          obtain ⟨y, hy, -⟩ := hm.step.grow r _ (List.getElem?_eq_getElem (hrs' r hr))
          exact (List.getElem?_eq_some_iff.mp hy).1
        refine (ih false w1 o1 hw1 hs1 (hm.step.arr.trans ha) hlt).mono ?_
        rintro res w2 ⟨o2, hb⟩
        have hv1 : valsOf w1.entries rs = valsOf w.entries rs := valsOf_grow hrs' hm.step.grow
        have hent : o1.entries = o.entries ++ [e] := hm.ok rfl
        have hvo : valsOf w1.entries o1.entries = valsOf w.entries o.entries ++ [x.toVal] := by
          obtain ⟨y, hy, hyv⟩ := hm.step.grow e x he
          rw [hent, valsOf_append, valsOf_cons hy, hyv, (hw.seq hs).entries.vals_grow hm.step.grow]; rfl
        refine ⟨o2, hm.step.trans hb.step, fun h => ?_, fun h => .inr ?_, fun n hx hf => ?_⟩
        · rw [hb.ok h, hv1, hvo, valsOf_cons he]; simp
        · rcases hb.undo h with ⟨rfl, rfl⟩ | h'
          · exact hm.undo
          · rw [h']; simpa using hm.undo
        · obtain ⟨-, hp⟩ := hm.exact n hx
          exact hb.exact n (hx.step hm.step hp) (by rw [hv1]; exact (valsOf_mem_fits he hf).2)
    · obtain ⟨rfl, rfl, rfl⟩ := hpost.reject hfit
      refine ⟨o1, .refl hw hs, fun h => (by cases h), fun h => (by cases h), fun n hx hf => ?_⟩
      refine absurd ?_ hfit
      rw [hx.dim]
      exact hxwf.fitsDim (valsOf_mem_fits he hf).1

theorem removeFirst_nil {τ : Arith} {s : ℕ} {w : World} {o : SeqObj} (hw : w.WF τ) (hs : w.seqs[s]? = some o)
    (hnil : o.entries = []) (first : Bool) : Seq.removeFirst τ s first w = (.ok (), w) := by
  have := removeFirst_wp hw hs first
  unfold Wp at this
  obtain ⟨o1, h1⟩ := this
  obtain ⟨h2, h3, -⟩ := h1.empty hnil
  exact Prod.ext h2 h3

theorem removeFirstN_nil {τ : Arith} {s : ℕ} {w : World} {o : SeqObj} (hw : w.WF τ) (hs : w.seqs[s]? = some o)
    (hnil : o.entries = []) (L : ℕ) (first : Bool) : removeFirstN τ s first L w = (.ok (), w) := by
  induction L generalizing first with
  | zero => rfl
  | succ L ih =>
    unfold removeFirstN
    rw [PyM.bind_of_ok (removeFirst_nil hw hs hnil first), ih]

theorem removeFirstN_wp {τ : Arith} {s : ℕ} (L : ℕ) (first : Bool) (w : World) (o : SeqObj) (hw : w.WF τ)
    (hs : w.seqs[s]? = some o) (ha : o.isArray = false) :
    Wp (removeFirstN τ s first L) (fun res w' => ∃ o', BulkPost τ w s o first
      ((valsOf w.entries o.entries).drop L) (fun _ => True) res w' o') w := by
  induction L generalizing first w o with
  | zero =>
    exact Wp.pure ⟨o, .refl hw hs, fun _ => by simp, fun _ => .inl ⟨rfl, rfl⟩, fun n hx _ => ⟨rfl, hx.prod⟩⟩
  | succ L ih =>
    by_cases hnil : o.entries = []
    · exact Wp.of_eq (removeFirstN_nil hw hs hnil _ _) ⟨o, .refl hw hs, fun _ => by rw [hnil]; simp,
        fun _ => .inl ⟨rfl, rfl⟩, fun n hx _ => ⟨rfl, hx.prod⟩⟩
    · unfold removeFirstN
      refine Wp.bind ((removeFirst_wp hw hs first).mono ?_)
      rintro res w1 ⟨o1, hpost⟩
      have hm := (hpost.some hnil).1 ha
      rcases res with err | u
      · refine ⟨o1, hm.step, fun h => (by cases h), fun h => (by cases h), fun n hx _ => ?_⟩
        exact absurd (hm.exact n hx).1 (by simp)
      · simp only
        refine (ih false w1 o1 (hm.step.wf hw) (hm.step.get hs) (hm.step.arr.trans ha)).mono ?_
        rintro res w2 ⟨o2, hb⟩
        have hent : o1.entries = o.entries.tail := hm.ok rfl
        have hlt := (hw.seq hs).entries.lt
        have hvo : valsOf w1.entries o1.entries = (valsOf w.entries o.entries).tail := by
          rw [hent, ← valsOf_tail hlt]
          exact valsOf_grow (fun r hr => hlt r (List.mem_of_mem_tail hr)) hm.step.grow
        refine ⟨o2, hm.step.trans hb.step, fun h => ?_, fun h => .inr ?_, fun n hx _ => ?_⟩
        · rw [hb.ok h, hvo, List.drop_tail]
        · rcases hb.undo h with ⟨rfl, rfl⟩ | h'
          · exact hm.undo
          · rw [h']; simpa using hm.undo
        · obtain ⟨-, hp⟩ := hm.exact n hx
          exact hb.exact n (hx.step hm.step hp) trivial

theorem removeLast_nil {τ : Arith} {s : ℕ} {w : World} {o : SeqObj} (hw : w.WF τ) (hs : w.seqs[s]? = some o)
    (hnil : o.entries = []) (first : Bool) : Seq.removeLast τ s first w = (.ok (), w) := by
  have := removeLast_wp hw hs first
  unfold Wp at this
  obtain ⟨o1, h1⟩ := this
  obtain ⟨h2, h3, -⟩ := h1.empty hnil
  exact Prod.ext h2 h3

theorem removeLastN_nil {τ : Arith} {s : ℕ} {w : World} {o : SeqObj} (hw : w.WF τ) (hs : w.seqs[s]? = some o)
    (hnil : o.entries = []) (L : ℕ) (first : Bool) : removeLastN τ s first L w = (.ok (), w) := by
  induction L generalizing first with
  | zero => rfl
  | succ L ih =>
    unfold removeLastN
    rw [PyM.bind_of_ok (removeLast_nil hw hs hnil first), ih]

theorem removeLastN_wp {τ : Arith} {s : ℕ} (L : ℕ) (first : Bool) (w : World) (o : SeqObj) (hw : w.WF τ)
    (hs : w.seqs[s]? = some o) (ha : o.isArray = false) :
    Wp (removeLastN τ s first L) (fun res w' => ∃ o', BulkPost τ w s o first
      ((valsOf w.entries o.entries).take ((valsOf w.entries o.entries).length - L)) (fun _ => True) res w' o') w := by
  induction L generalizing first w o with
  | zero =>
    exact Wp.pure ⟨o, .refl hw hs, fun _ => by simp, fun _ => .inl ⟨rfl, rfl⟩, fun n hx _ => ⟨rfl, hx.prod⟩⟩
  | succ L ih =>
    by_cases hnil : o.entries = []
    · exact Wp.of_eq (removeLastN_nil hw hs hnil _ _) ⟨o, .refl hw hs, fun _ => by rw [hnil]; simp,
        fun _ => .inl ⟨rfl, rfl⟩, fun n hx _ => ⟨rfl, hx.prod⟩⟩
    · unfold removeLastN
      refine Wp.bind ((removeLast_wp hw hs first).mono ?_)
      rintro res w1 ⟨o1, hpost⟩
      have hm := (hpost.some hnil).1 ha
      rcases res with err | u
      · refine ⟨o1, hm.step, fun h => (by cases h), fun h => (by cases h), fun n hx _ => ?_⟩
        exact absurd (hm.exact n hx).1 (by simp)
      · simp only
        refine (ih false w1 o1 (hm.step.wf hw) (hm.step.get hs) (hm.step.arr.trans ha)).mono ?_
        rintro res w2 ⟨o2, hb⟩
        have hent : o1.entries = o.entries.dropLast := hm.ok rfl
        have hlt := (hw.seq hs).entries.lt
        have hvo : valsOf w1.entries o1.entries = (valsOf w.entries o.entries).dropLast := by
          rw [hent, ← valsOf_dropLast hlt]
          exact valsOf_grow (fun r hr => hlt r (List.mem_of_mem_dropLast hr)) hm.step.grow
        refine ⟨o2, hm.step.trans hb.step, fun h => ?_, fun h => .inr ?_, fun n hx _ => ?_⟩
        · rw [hb.ok h, hvo, List.dropLast_eq_take, List.take_take, List.length_take]
          congr 1; omega
        · rcases hb.undo h with ⟨rfl, rfl⟩ | h'
          · exact hm.undo
          · rw [h']; simpa using hm.undo
        · obtain ⟨-, hp⟩ := hm.exact n hx
          exact hb.exact n (hx.step hm.step hp) trivial

/-! ## One random change -/

/-- The common form of the two change functions. -/
noncomputable def changeWith (τ : Arith) (C : Compiler) (mk : PyM World (List ℕ)) (L : ℕ) (seq : ℕ) :
    PyM World Unit := do
  let action ← chooseAction C
  match action with
  | .appendFirst => do
    let layer ← mk
    appendFirstAll τ seq true layer
  | .appendLast => do
    let layer ← mk
    appendLastAll τ seq true layer
  | .removeFirst => removeFirstN τ seq true L
  | .removeLast => removeLastN τ seq true L

theorem makeRandomChange_eq (τ : Arith) (C : Compiler) : makeRandomChange τ C =
    changeWith τ C (do let e ← createRandomSequenceEntry τ C.dimension C.primitives C.probabilities; return [e])
      1 := by
  have hu : ∀ m : PyM World Unit, (m >>= fun _ => pure ()) = m := PyM.bind_pure'
  funext seq
  unfold makeRandomChange changeWith
  refine congrArg (fun f => chooseAction C >>= f) (funext fun a => ?_)
  cases a
  · simp only [PyM.bind_assoc', PyM.pure_bind', appendFirstAll, hu]
  · simp only [PyM.bind_assoc', PyM.pure_bind', appendLastAll, hu]
  · simp only [removeFirstN, hu]
  · simp only [removeLastN, hu]

theorem makeRandomChangeLayered_eq (τ : Arith) (C : Compiler) (counts : List (Primitive × ℤ)) :
    makeRandomChangeLayered τ C counts =
      changeWith τ C (createRandomLayer τ C.dimension counts) ((counts.map Prod.snd).sum : ℤ).toNat := rfl

/-- Only sequence `s` changed; entries may have been added. -/
structure Only (s : ℕ) (w w' : World) : Prop where
  grow : Grow w.entries w'.entries
  len : w'.seqs.length = w.seqs.length
  others : ∀ t, t ≠ s → w'.seqs[t]? = w.seqs[t]?

theorem Only.refl (s : ℕ) (w : World) : Only s w w := ⟨.refl _, rfl, fun _ _ => rfl⟩
theorem Only.trans {s : ℕ} {w w' w'' : World} (h : Only s w w') (h' : Only s w' w'') : Only s w w'' :=
  ⟨h.grow.trans h'.grow, h'.len.trans h.len, fun t ht => (h'.others t ht).trans (h.others t ht)⟩
theorem Step.only {τ : Arith} {w w' : World} {s : ℕ} {o o' : SeqObj} (h : Step τ w w' s o o') : Only s w w' :=
  ⟨h.grow, by rw [h.seqs, List.length_set], fun _ ht => h.get_ne ht⟩

/-- Outcome of a random change: it is the proposal `prop` made on the list of gates with the same random numbers. -/
structure ChangePost (τ : Arith) (G : EntryVal → Prop) (prop : List EntryVal → PyM Rng (List EntryVal)) (w : World)
    (s : ℕ) (o : SeqObj) (res : Except PyErr Unit) (w' : World) (o' : SeqObj) : Prop where
  wf : w'.WF τ
  only : Only s w w'
  betas : w'.betas = w.betas
  get : w'.seqs[s]? = some o'
  dim : o'.dimension = o.dimension
  arr : o'.isArray = false
  ok : res = .ok () → ∃ new, prop (valsOf w.entries o.entries) w.rng = (.ok new, w'.rng) ∧
    valsOf w'.entries o'.entries = new ∧
    (o' = o ∨ o'.previousEntries.map (valsOf w'.entries) = some (valsOf w.entries o.entries))
  exact : ∀ n, Exact0 τ n w o → (∀ v, G v → v.Fits n ∧ v.Exact) →
    match prop (valsOf w.entries o.entries) w.rng with
    | (.error e, r) => res = .error e ∧ w'.rng = r
    | (.ok _, _) => res = .ok () ∧ Exact0 τ n w' o'

/-- Entries with empty caches were added. -/
theorem addEntries_wf {τ : Arith} {w : World} (hw : w.WF τ) {l : List EntryObj} {G : EntryVal → Prop}
    (hl : ∀ x ∈ l, x.toVal.WF ∧ x.cache = [] ∧ G x.toVal) (r : Rng) :
    ({ w with entries := w.entries ++ l, rng := r } : World).WF τ :=
  ⟨(hw.appendEntries (l := l) fun x hx => ⟨(hl x hx).1, fun D u h => by rw [(hl x hx).2.1] at h; simp at h⟩).entries,
    (hw.appendEntries (l := l) fun x hx =>
      ⟨(hl x hx).1, fun D u h => by rw [(hl x hx).2.1] at h; simp at h⟩).seqs⟩

theorem addEntries_exact {n : ℕ} {w : World} {o : SeqObj} (hw : SeqOk w.entries o) (hx : Exact0 τ n w o)
    {l : List EntryObj} (hl : ∀ x ∈ l, x.toVal.Exact) (r : Rng) :
    Exact0 τ n { w with entries := w.entries ++ l, rng := r } o := by
  refine ⟨hx.tau, hx.dim, ?_, hx.prod.grow hw (.append _ _)⟩
  intro x hx'
  rcases List.mem_append.mp hx' with h | h
  · exact hx.es x h
  · exact hl x h

theorem changeWith_error {τ : Arith} {C : Compiler} {mk : PyM World (List ℕ)} (L : ℕ)
    (h : ¬ (0 ≤ C.appendProbability ∧ C.appendProbability ≤ 1)) (w : World) (s : ℕ) :
    changeWith τ C mk L s w = (.error .valueError, w) := by
  unfold changeWith
  rw [PyM.bind_of_error (chooseAction_error h w)]

theorem changeWith_wp {τ : Arith} {C : Compiler} {mk : PyM World (List ℕ)} {fresh : PyM Rng (List EntryVal)}
    {G : EntryVal → Prop} (hmk : MkOk G mk fresh) (L : ℕ) {w : World} {s : ℕ} {o : SeqObj} (hw : w.WF τ)
    (hs : w.seqs[s]? = some o) (ha : o.isArray = false) :
    Wp (changeWith τ C mk L s) (fun res w' => ∃ o',
      ChangePost τ G (Metropolis.propose C.appendProbability fresh L) w s o res w' o') w := by
  by_cases hp01 : 0 ≤ C.appendProbability ∧ C.appendProbability ≤ 1
  swap
  · refine Wp.of_eq (changeWith_error L hp01 w s) ⟨o, hw, .refl s w, rfl, hs, rfl, ha, fun h => (by cases h),
      fun n _ _ => ?_⟩
    have : Metropolis.propose C.appendProbability fresh L (valsOf w.entries o.entries) w.rng =
        (.error .valueError, w.rng) := by
      unfold Metropolis.propose
      rw [raiseUnless_of_not hp01]; rfl
    rw [this]; exact ⟨rfl, rfl⟩
  obtain ⟨h0, h1⟩ := hp01
  unfold changeWith
  refine Wp.bind_ok (chooseAction_eq h0 h1 w) ?_
  generalize hr1 : ({ w.rng with upos := w.rng.upos + 1 } : Rng) = r1
  generalize hgates : valsOf w.entries o.entries = gates
  have hprop : Metropolis.propose C.appendProbability fresh L gates w.rng =
      match pick C.appendProbability (w.rng.unif w.rng.upos) with
      | .appendFirst => (do let new ← fresh; return new.reverse ++ gates : PyM Rng _) r1
      | .appendLast => (do let new ← fresh; return gates ++ new : PyM Rng _) r1
      | .removeFirst => (.ok (gates.drop L), r1)
      | .removeLast => (.ok (gates.take (gates.length - L)), r1) := by
    unfold Metropolis.propose pick
    have e : PyM.lift (raiseUnless (0 ≤ C.appendProbability ∧ C.appendProbability ≤ 1) .valueError) w.rng =
        (.ok (), w.rng) := by rw [raiseUnless_of ⟨h0, h1⟩]; rfl
    rw [PyM.bind_of_ok e, PyM.bind_of_ok (Rng.randomSample_eq w.rng), hr1]
    split_ifs <;> rfl
  have hw1 : ({ w with rng := r1 } : World).WF τ := ⟨hw.entries, hw.seqs⟩
  have bulk : ∀ (new : List EntryVal) (res : Except PyErr Unit) (w1 w' : World) (l : List EntryObj) (r : Rng)
      (o' : SeqObj) (fit : ℕ → Prop), w1 = { w with entries := w.entries ++ l, rng := r } →
      (∀ x ∈ l, x.toVal.WF ∧ x.cache = [] ∧ G x.toVal) →
      BulkPost τ w1 s o true new fit res w' o' →
      Metropolis.propose C.appendProbability fresh L gates w.rng = (.ok new, r) →
      (∀ n, (∀ v, G v → v.Fits n ∧ v.Exact) → fit n) →
      ChangePost τ G (Metropolis.propose C.appendProbability fresh L) w s o res w' o' := by
    rintro new res w1 w' l r o' fit rfl hl hb hp hfit
    have hwl := addEntries_wf hw hl r
    have hgl : valsOf (w.entries ++ l) o.entries = valsOf w.entries o.entries :=
      (hw.seq hs).entries.vals_grow (.append _ _)
    refine ⟨hb.step.wf hwl, ?_, hb.step.betas, hb.step.get hs, hb.step.dim, hb.step.arr.trans ha, fun h => ?_,
      fun n hx hG => ?_⟩
    · exact Only.trans (w' := { w with entries := w.entries ++ l, rng := r })
        ⟨.append _ _, rfl, fun _ _ => rfl⟩ hb.step.only
    · refine ⟨new, ?_, hb.ok h, ?_⟩
      · rw [hgates, hp, hb.step.rng]
      · rcases hb.undo h with ⟨rfl, -⟩ | h'
        · exact .inl rfl
        · refine .inr ?_
          rw [h', if_pos rfl]
          exact congrArg some hgl
    · rw [hgates, hp]
      have hx1 := addEntries_exact (hw.seq hs) hx (l := l) (fun x hx' => (hG _ (hl x hx').2.2).2) r
      obtain ⟨h2, h3⟩ := hb.exact n hx1 (hfit n hG)
      exact ⟨h2, hx1.step hb.step h3⟩
  have fail : ∀ (res : Except PyErr Unit) (w' : World) (l : List EntryObj) (r : Rng) (e : PyErr),
      w' = { w with entries := w.entries ++ l, rng := r } →
      (∀ x ∈ l, x.toVal.WF ∧ x.cache = [] ∧ G x.toVal) → res = .error e →
      Metropolis.propose C.appendProbability fresh L gates w.rng = (.error e, r) →
      ChangePost τ G (Metropolis.propose C.appendProbability fresh L) w s o res w' o := by
    rintro res w' l r e rfl hl rfl hp
    refine ⟨addEntries_wf hw hl r, ⟨.append _ _, rfl, fun _ _ => rfl⟩, rfl, hs, rfl, ha, fun h => (by cases h),
      fun n _ _ => ?_⟩
    rw [hgates, hp]; exact ⟨rfl, rfl⟩
  have w1eq : ({ w with rng := r1 } : World) = { w with entries := w.entries ++ [], rng := r1 } := by simp
  rcases hpick : pick C.appendProbability (w.rng.unif w.rng.upos) with _ | _ | _ | _
  · rw [hpick] at hprop
    simp only at hprop ⊢
    refine Wp.bind ((hmk _).mono ?_)
    rintro res w2 ⟨⟨l, rfl, hl⟩, hres⟩
    rcases hf : fresh r1 with ⟨e | vs, r2⟩
    · simp only at hres
      rw [hf] at hres
      simp only at hres
      subst hres
      exact ⟨o, fail _ _ l r2 e rfl hl rfl (by rw [hprop, PyM.bind_of_error hf])⟩
    · simp only at hres
      rw [hf] at hres
      obtain ⟨rs, rfl, h2, h3, h4⟩ := hres
      simp only at h2 h3 ⊢
      refine (appendFirstAll_wp rs true _ o (addEntries_wf hw hl r2) hs ha h2).mono ?_
      rintro res w3 ⟨o3, hb⟩
      refine ⟨o3, bulk _ res _ w3 l r2 o3 _ rfl hl hb ?_ ?_⟩
      · rw [hprop, PyM.bind_of_ok hf]
        simp only
        rw [h3, (hw.seq hs).entries.vals_grow (.append _ _), hgates]; rfl
      · intro n hG
        simp only
        rw [h3]
        exact fun v hv => (hG v (h4 v hv)).1
  · rw [hpick] at hprop
    simp only at hprop ⊢
    refine Wp.bind ((hmk _).mono ?_)
    rintro res w2 ⟨⟨l, rfl, hl⟩, hres⟩
    rcases hf : fresh r1 with ⟨e | vs, r2⟩
    · simp only at hres
      rw [hf] at hres
      simp only at hres
      subst hres
      exact ⟨o, fail _ _ l r2 e rfl hl rfl (by rw [hprop, PyM.bind_of_error hf])⟩
    · simp only at hres
      rw [hf] at hres
      obtain ⟨rs, rfl, h2, h3, h4⟩ := hres
      simp only at h2 h3 ⊢
      refine (appendLastAll_wp rs true _ o (addEntries_wf hw hl r2) hs ha h2).mono ?_
      rintro res w3 ⟨o3, hb⟩
      refine ⟨o3, bulk _ res _ w3 l r2 o3 _ rfl hl hb ?_ ?_⟩
      · rw [hprop, PyM.bind_of_ok hf]
        simp only
        rw [h3, (hw.seq hs).entries.vals_grow (.append _ _), hgates]; rfl
      · intro n hG
        simp only
        rw [h3]
        exact fun v hv => (hG v (h4 v hv)).1
  · rw [hpick] at hprop
    simp only at hprop ⊢
    refine (removeFirstN_wp L true _ o hw1 hs ha).mono ?_
    rintro res w3 ⟨o3, hb⟩
    exact ⟨o3, bulk _ res _ w3 [] r1 o3 _ w1eq (by simp) hb (by rw [hprop, ← hgates]) (fun _ _ => trivial)⟩
  · rw [hpick] at hprop
    simp only at hprop ⊢
    refine (removeLastN_wp L true _ o hw1 hs ha).mono ?_
    rintro res w3 ⟨o3, hb⟩
    exact ⟨o3, bulk _ res _ w3 [] r1 o3 _ w1eq (by simp) hb (by rw [hprop, ← hgates]) (fun _ _ => trivial)⟩

end Stoq
