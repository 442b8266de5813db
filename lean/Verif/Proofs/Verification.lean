import Verif.Spec.Verification
import Verif.Proofs.Walk
import Verif.Proofs.SequenceCombine

/-! # Randomized verification sequences, on the heap -/

namespace Stoq

open World Compiler Matrix

/-- Nothing that existed is lost: sequences keep what can be observed of them, values of entries stay, and
compilers are only added. -/
structure Safe (τ : Arith) (w w' : World) : Prop where
  wf : w'.WF τ
  grow : Grow w.entries w'.entries
  others : ∀ (t : ℕ) (o : SeqObj), w.seqs[t]? = some o → ∃ o', w'.seqs[t]? = some o' ∧ SameButProd o o'
  betas : w.betas <+: w'.betas

theorem Safe.refl {τ : Arith} {w : World} (hw : w.WF τ) : Safe τ w w :=
  ⟨hw, .refl _, fun _ o h => ⟨o, h, .refl o⟩, List.prefix_rfl⟩

theorem Safe.trans {τ : Arith} {w w' w'' : World} (h : Safe τ w w') (h' : Safe τ w' w'') : Safe τ w w'' := by
  refine ⟨h'.wf, h.grow.trans h'.grow, fun t o ho => ?_, h.betas.trans h'.betas⟩
  obtain ⟨o1, h1, h2⟩ := h.others t o ho
  obtain ⟨o2, h3, h4⟩ := h'.others t o1 h1
  exact ⟨o2, h3, h2.trans h4⟩

theorem Ext.safe {τ : Arith} {w w' : World} (h : Ext τ w w') : Safe τ w w' :=
  ⟨h.wf, h.grow, h.seqs, h.betas ▸ List.prefix_rfl⟩

/-- A change of a sequence that did not exist before is safe. -/
theorem Safe.only {τ : Arith} {w w1 w2 : World} {s : ℕ} (h : Safe τ w w1) (hs : w.seqs.length ≤ s) (hw2 : w2.WF τ)
    (ho : Only s w1 w2) (hb : w1.betas <+: w2.betas) : Safe τ w w2 := by
  refine ⟨hw2, h.grow.trans ho.grow, fun t o ht => ?_, h.betas.trans hb⟩
  obtain ⟨o1, h1, h2⟩ := h.others t o ht
  have hlt := (List.getElem?_eq_some_iff.mp ht).1
  exact ⟨o1, by rw [ho.others t (by omega)]; exact h1, h2⟩

/-! ## The random part -/

/-- Effect of appending several entries. -/
structure AddPost (τ : Arith) (w : World) (s : ℕ) (o : SeqObj) (new : List EntryVal)
    (res : Except PyErr Unit) (w' : World) (o' : SeqObj) : Prop where
  step : Step τ w w' s o o'
  ok : res = .ok () → valsOf w'.entries o'.entries = valsOf w.entries o.entries ++ new
  exact : ∀ n, Exact0 τ n w o → (∀ v ∈ new, v.Fits n) → res = .ok () ∧ ProdOk w'.entries n o'

theorem appendAll_wp {τ : Arith} {s : ℕ} (rs : List ℕ) (w : World) (o : SeqObj) (hw : w.WF τ)
    (hs : w.seqs[s]? = some o) (ha : o.isArray = false) (hrs : ∀ r ∈ rs, r < w.entries.length) :
    Wp (Verification.appendAll τ s rs) (fun res w' => ∃ o', AddPost τ w s o (valsOf w.entries rs) res w' o') w := by
  induction rs generalizing w o with
  | nil => exact Wp.pure ⟨o, .refl hw hs, fun _ => by simp, fun n hx _ => ⟨rfl, hx.prod⟩⟩
  | cons e rs ih =>
    unfold Verification.appendAll
    have he := List.getElem?_eq_getElem (hrs e (by simp))
    have hrs' : ∀ r ∈ rs, r < w.entries.length := fun r hr => hrs r (by simp [hr])
    generalize w.entries[e]'(hrs e (by simp)) = x at he
    have hxwf := (hw.entries x (List.mem_of_getElem? he)).wf
    refine Wp.bind ((appendLast_wp hw hs he true).mono ?_)
    rintro res w1 ⟨o1, hpost⟩
    by_cases hfit : FitsDim x.toVal o.dimension
    · have hm := (hpost.accept hfit).1 ha
      rcases res with err | u
      · exact ⟨o1, hm.step, fun h => (by cases h), fun n hx _ => absurd (hm.exact n hx).1 (by simp)⟩
      · simp only
        have hlt : ∀ r ∈ rs, r < w1.entries.length := by
          intro r hr
          obtain ⟨y, hy, -⟩ := hm.step.grow r _ (List.getElem?_eq_getElem (hrs' r hr))
          exact (List.getElem?_eq_some_iff.mp hy).1
        refine (ih w1 o1 (hm.step.wf hw) (hm.step.get hs) (hm.step.arr.trans ha) hlt).mono ?_
        rintro res w2 ⟨o2, hb⟩
        have hv1 : valsOf w1.entries rs = valsOf w.entries rs := valsOf_grow hrs' hm.step.grow
        have hent : o1.entries = o.entries ++ [e] := hm.ok rfl
        have hvo : valsOf w1.entries o1.entries = valsOf w.entries o.entries ++ [x.toVal] := by
          obtain ⟨y, hy, hyv⟩ := hm.step.grow e x he
          rw [hent, valsOf_append, valsOf_cons hy, hyv, (hw.seq hs).entries.vals_grow hm.step.grow]; rfl
        refine ⟨o2, hm.step.trans hb.step, fun h => ?_, fun n hx hf => ?_⟩
        · rw [hb.ok h, hv1, hvo, valsOf_cons he]; simp
        · obtain ⟨-, hp⟩ := hm.exact n hx
          exact hb.exact n (hx.step hm.step hp) (by rw [hv1]; exact (valsOf_mem_fits he hf).2)
    · obtain ⟨rfl, rfl, rfl⟩ := hpost.reject hfit
      refine ⟨o1, .refl hw hs, fun h => (by cases h), fun n hx hf => absurd ?_ hfit⟩
      rw [hx.dim]
      exact hxwf.fitsDim (valsOf_mem_fits he hf).1

/-- The common form of the two loops. -/
noncomputable def appendBlocks (τ : Arith) (mk : PyM World (List ℕ)) (seq : ℕ) : ℕ → PyM World Unit
  | 0 => pure ()
  | k + 1 => do
    let rs ← mk
    Verification.appendAll τ seq rs
    appendBlocks τ mk seq k

theorem appendRandomEntries_eq (τ : Arith) (D : ℕ) (prims : List Primitive) (probs : Option (List ℝ)) (s k : ℕ) :
    Verification.appendRandomEntries τ D prims probs s k =
      appendBlocks τ (do let e ← createRandomSequenceEntry τ D prims probs; return [e]) s k := by
  induction k with
  | zero => rfl
  | succ k ih =>
    unfold Verification.appendRandomEntries appendBlocks
    rw [ih]
    simp only [PyM.bind_assoc', PyM.pure_bind', Verification.appendAll]

theorem appendRandomLayers_eq (τ : Arith) (D : ℕ) (counts : List (Primitive × ℤ)) (s k : ℕ) :
    Verification.appendRandomLayers τ D counts s k = appendBlocks τ (createRandomLayer τ D counts) s k := by
  induction k with
  | zero => rfl
  | succ k ih =>
    unfold Verification.appendRandomLayers appendBlocks
    rw [ih]

/-- Outcome of the random part: the drawn gates are at the end. -/
structure FillPost (τ : Arith) (G : EntryVal → Prop) (random : PyM Rng (List EntryVal)) (w : World)
    (s : ℕ) (o : SeqObj) (res : Except PyErr Unit) (w' : World) (o' : SeqObj) : Prop where
  wf : w'.WF τ
  only : Only s w w'
  betas : w'.betas = w.betas
  get : w'.seqs[s]? = some o'
  dim : o'.dimension = o.dimension
  arr : o'.isArray = false
  ok : res = .ok () → ∃ vs, random w.rng = (.ok vs, w'.rng) ∧
    valsOf w'.entries o'.entries = valsOf w.entries o.entries ++ vs
  exact : ∀ n, Exact0 τ n w o → (∀ v, G v → v.Fits n ∧ v.Exact) →
    match random w.rng with
    | (.error e, r) => res = .error e ∧ w'.rng = r
    | (.ok _, _) => res = .ok () ∧ Exact0 τ n w' o'

/-- `fill` appends gates drawn by `random` to a sequence. -/
def FillOk (τ : Arith) (G : EntryVal → Prop) (fill : ℕ → PyM World Unit) (random : PyM Rng (List EntryVal)) : Prop :=
  ∀ (w : World) (s : ℕ) (o : SeqObj), w.WF τ → w.seqs[s]? = some o → o.isArray = false →
    Wp (fill s) (fun res w' => ∃ o', FillPost τ G random w s o res w' o') w

theorem FillOk.nil {τ : Arith} {G : EntryVal → Prop} : FillOk τ G (fun _ => pure ()) (pure []) := by
  intro w s o hw hs ha
  refine Wp.pure ⟨o, hw, .refl s w, rfl, hs, rfl, ha, fun _ => ⟨[], rfl, by simp⟩, fun n hx _ => ?_⟩
  exact ⟨rfl, hx⟩

theorem FillOk.raise {τ : Arith} {G : EntryVal → Prop} (e : PyErr) :
    FillOk τ G (fun _ => PyM.raise e) (PyM.raise e) := by
  intro w s o hw hs ha
  exact Wp.of_eq (r := .error e) (w' := w) rfl
    ⟨o, hw, .refl s w, rfl, hs, rfl, ha, fun h => (by cases h), fun n hx _ => ⟨rfl, rfl⟩⟩

theorem FillOk.withRng {τ : Arith} {G : EntryVal → Prop} {α : Type} {x : PyM Rng α} {fill : α → ℕ → PyM World Unit}
    {random : α → PyM Rng (List EntryVal)}
    (h : ∀ a r r', x r = (.ok a, r') → FillOk τ G (fill a) (random a)) :
    FillOk τ G (fun s => World.withRng x >>= fun a => fill a s) (x >>= random) := by
  intro w s o hw hs ha
  rcases hx : x w.rng with ⟨e | a, r⟩
  · have h1 : World.withRng x w = (.error e, { w with rng := r }) := by
      unfold World.withRng PyM.zoom; rw [hx]
    have h2 : (x >>= random) w.rng = (.error e, r) := PyM.bind_of_error hx
    refine Wp.bind_error h1 ⟨o, ⟨hw.entries, hw.seqs⟩, ⟨.refl _, rfl, fun _ _ => rfl⟩, rfl, hs, rfl, ha,
      fun h => (by cases h), fun n hx _ => ?_⟩
    rw [h2]
    exact ⟨rfl, rfl⟩
  · have h1 : World.withRng x w = (.ok a, { w with rng := r }) := by
      unfold World.withRng PyM.zoom; rw [hx]
    have h2 : (x >>= random) w.rng = random a r := PyM.bind_of_ok hx
    refine Wp.bind_ok h1 ((h a _ _ hx { w with rng := r } s o ⟨hw.entries, hw.seqs⟩ hs ha).mono ?_)
    rintro res w' ⟨o', hp⟩
    refine ⟨o', hp.wf, Only.trans (w' := { w with rng := r }) ⟨.refl _, rfl, fun _ _ => rfl⟩ hp.only, hp.betas, hp.get,
      hp.dim, hp.arr, fun h => ?_, fun n hx hG => ?_⟩
    · obtain ⟨vs, h3, h4⟩ := hp.ok h
      exact ⟨vs, by rw [h2]; exact h3, h4⟩
    · rw [h2]
      exact hp.exact n ⟨hx.tau, hx.dim, hx.es, hx.prod⟩ hG

theorem FillOk.block {τ : Arith} {mk : PyM World (List ℕ)} {fresh random : PyM Rng (List EntryVal)}
    {G : EntryVal → Prop} {fill : ℕ → PyM World Unit} (hmk : MkOk G mk fresh) (hfill : FillOk τ G fill random) :
    FillOk τ G (fun s => do let rs ← mk; Verification.appendAll τ s rs; fill s)
      (do let b ← fresh; let rest ← random; return b ++ rest) := by
  intro w s o hw hs ha
  refine Wp.bind ((hmk w).mono ?_)
  rintro res w1 ⟨⟨l, rfl, hl⟩, hres⟩
  rcases hf : fresh w.rng with ⟨e | vs, r1⟩
  · rw [hf] at hres
    simp only at hres
    subst hres
    refine ⟨o, addEntries_wf hw hl _, ⟨.append _ _, rfl, fun _ _ => rfl⟩, rfl, hs, rfl, ha,
      fun h => (by cases h), fun n _ _ => ?_⟩
    have : (fresh >>= fun b => random >>= fun rest => pure (b ++ rest)) w.rng = (.error e, r1) := by
      rw [PyM.bind_of_error hf]
    rw [this]
    exact ⟨rfl, rfl⟩
  · rw [hf] at hres
    obtain ⟨rs, rfl, h2, h3, h4⟩ := hres
    simp only at h2 h3 ⊢
    have hw1 := addEntries_wf hw hl r1
    have hg0 : valsOf (w.entries ++ l) o.entries = valsOf w.entries o.entries :=
      (hw.seq hs).entries.vals_grow (.append _ _)
    refine Wp.bind ((appendAll_wp rs { w with entries := w.entries ++ l, rng := r1 } o hw1 hs ha h2).mono ?_)
    rintro res w2 ⟨o2, hb⟩
    have hw2 := hb.step.wf hw1
    have hs2 := hb.step.get hs
    have honly : Only s w w2 := Only.trans (w' := { w with entries := w.entries ++ l, rng := r1 })
      ⟨.append _ _, rfl, fun _ _ => rfl⟩ hb.step.only
    rcases res with e | u
    · refine ⟨o2, hw2, honly, hb.step.betas, hs2, hb.step.dim, hb.step.arr.trans ha, fun h => (by cases h),
        fun n hx hG => ?_⟩
      have hx1 := addEntries_exact (hw.seq hs) hx (l := l) (fun x hx' => (hG _ (hl x hx').2.2).2) r1
      have := (hb.exact n hx1 (by
        simp only
        rw [h3]; exact fun v hv => (hG v (h4 v hv)).1)).1
      cases this
    · simp only
      refine (hfill w2 s o2 hw2 hs2 (hb.step.arr.trans ha)).mono ?_
      rintro res w3 ⟨o3, hp⟩
      have hvo : valsOf w2.entries o2.entries = valsOf w.entries o.entries ++ vs := by
        rw [hb.ok rfl]
        simp only
        rw [h3, hg0]
      have hr2 : w2.rng = r1 := hb.step.rng
      refine ⟨o3, hp.wf, honly.trans hp.only, hp.betas.trans hb.step.betas, hp.get, hp.dim.trans hb.step.dim,
        hp.arr, fun h => ?_, fun n hx hG => ?_⟩
      · obtain ⟨more, h5, h6⟩ := hp.ok h
        rw [hr2] at h5
        refine ⟨vs ++ more, ?_, by rw [h6, hvo, List.append_assoc]⟩
        rw [PyM.bind_of_ok hf, PyM.bind_of_ok h5]; rfl
      · have hx1 := addEntries_exact (hw.seq hs) hx (l := l) (fun x hx' => (hG _ (hl x hx').2.2).2) r1
        obtain ⟨-, h5⟩ := hb.exact n hx1 (by
          simp only
          rw [h3]; exact fun v hv => (hG v (h4 v hv)).1)
        have h6 := hp.exact n (hx1.step hb.step h5) hG
        rw [hr2] at h6
        rw [PyM.bind_of_ok hf]
        rcases hbl : random r1 with ⟨e | more, r2⟩
        · rw [hbl] at h6
          rw [PyM.bind_of_error hbl]
          exact h6
        · rw [hbl] at h6
          rw [PyM.bind_of_ok hbl]
          exact h6

theorem fill_blocks {τ : Arith} {mk : PyM World (List ℕ)} {fresh : PyM Rng (List EntryVal)} {G : EntryVal → Prop}
    (hmk : MkOk G mk fresh) (k : ℕ) : FillOk τ G (fun s => appendBlocks τ mk s k) (Rav.blocks fresh k) := by
  induction k with
  | zero => exact .nil
  | succ k ih => exact .block hmk ih

/-! ## The whole function -/

open Classical in
/-- The common form of the functions, after the checks. -/
noncomputable def ravWith (τ : Arith) (D : ℕ) (fill : ℕ → PyM World Unit) (skip : Prop)
    (comp : Unitary → PyM World CompilerResult) : PyM World CompilerResult := do
  let s ← Seq.new D false []
  fill s
  if skip then
    return { sequence := s, costByStep := [] }
  else do
    let p ← Seq.product τ s
    let target ← PyM.lift (p.inverse τ)
    let result ← comp target
    let combined ← Seq.combine τ [s, result.sequence]
    return { result with sequence := combined }

/-- `comp` makes a compiler and compiles with it, following `prop`; if `T` does not hold, it raises an exception. -/
def CompOk (τ : Arith) (G : EntryVal → Prop) (prop : List EntryVal → PyM Rng (List EntryVal)) (rate cap : ℝ) (D : ℕ)
    (threshold : Option ℝ) (m : ℤ) (T : Prop) (comp : Unitary → PyM World CompilerResult) : Prop :=
  ∀ w target, w.WF τ →
    (T → ∃ C : Compiler, C.dimension = D ∧ C.annealingRate = rate ∧ C.maxBeta = cap ∧ C.self = w.betas.length ∧
      CompilePost τ G prop C target threshold m { w with betas := w.betas ++ [0] } 0
        (comp target w).1 (comp target w).2) ∧
    (¬ T → ∃ e, comp target w = (.error e, w) ∨ comp target w = (.error e, { w with betas := w.betas ++ [0] }))

/-- Outcome of the whole function. -/
structure RavPost (τ : Arith) (G G' : EntryVal → Prop) (random : PyM Rng (List EntryVal))
    (prop : List EntryVal → PyM Rng (List EntryVal)) (rate cap : ℝ) (D : ℕ)
    (threshold : Option ℝ) (skip : Prop) (m : ℤ) (T : Prop) (w : World)
    (res : Except PyErr CompilerResult) (w' : World) : Prop where
  safe : Safe τ w w'
  ok : ∀ R, res = .ok R → ∃ pre r1 o', random w.rng = (.ok pre, r1) ∧
    w.seqs.length ≤ R.sequence ∧ w'.seqs[R.sequence]? = some o' ∧ o'.dimension = D ∧ o'.isArray = false ∧
    (skip → R.costByStep = [] ∧ w'.rng = r1 ∧ valsOf w'.entries o'.entries = pre) ∧
    (¬ skip → T ∧ ∃ gates b', (R.costByStep = [] ∨ (R.costByStep.length : ℤ) ≤ m) ∧
      Metropolis.Walk rate cap prop [] 0 r1 R.costByStep.length gates b' w'.rng ∧
      valsOf w'.entries o'.entries = pre ++ gates)
  exact : ∀ n, τ = 0 → D = 2 ^ n → ExactEs w.entries → (∀ v, G v → v.Fits n ∧ v.Exact) →
    (∀ v, G' v → v.Fits n ∧ v.Exact) → T →
    match Rav.plan n random prop rate cap threshold skip m w.rng with
    | (.error e, r) => res = .error e ∧ w'.rng = r
    | (.ok (pre, tr), r) => w'.rng = r ∧ ∃ R o', res = .ok R ∧
        R.costByStep = tr.map (fun st => Metropolis.cost n (circuit n pre)ᴴ st.gates) ∧
        w'.seqs[R.sequence]? = some o' ∧ valsOf w'.entries o'.entries = pre ++ Rav.final tr ∧ Exact0 τ n w' o'

open Classical in
theorem ravWith_wp {τ : Arith} {G G' : EntryVal → Prop} {fill : ℕ → PyM World Unit} {random : PyM Rng (List EntryVal)}
    (hfill : FillOk τ G fill random) {prop : List EntryVal → PyM Rng (List EntryVal)} {rate cap : ℝ} {D : ℕ}
    {threshold : Option ℝ} {m : ℤ} {T : Prop} {comp : Unitary → PyM World CompilerResult} (hcomp : CompOk τ G' prop rate cap D threshold m T comp)
    (skip : Prop) {w : World} (hw : w.WF τ) :
    Wp (ravWith τ D fill skip comp) (RavPost τ G G' random prop rate cap D threshold skip m T w) w := by
  unfold ravWith
  refine Wp.bind ((new_wp hw (rs := []) (by simp)).mono ?_)
  rintro res w1 ⟨-, h⟩
  obtain ⟨rs', rfl, hext, hseqs, hcop⟩ := h (by intro r hr; simp at hr)
  have hrs : rs' = [] := by
    obtain ⟨f, hf, -⟩ := hcop.count
    simpa using hf
  subst hrs
  simp only
  have hs1 : w1.seqs[w.seqs.length]? = some ⟨D, false, [], none, none, none⟩ := by
    rw [hseqs]; simp
  have hlen1 : w1.seqs.length = w.seqs.length + 1 := by rw [hseqs]; simp
  refine Wp.bind ((hfill w1 _ _ hext.wf hs1 rfl).mono ?_)
  rintro res w2 ⟨o2, hf⟩
  have hsafe2 : Safe τ w w2 := hext.safe.only le_rfl hf.wf hf.only (by rw [hf.betas])
  have hx1 : ∀ n, τ = 0 → D = 2 ^ n → ExactEs w.entries → Exact0 τ n w1 ⟨D, false, [], none, none, none⟩ := by
    intro n h1 h2 h3
    exact ⟨h1, h2, hcop.nonew.forall (P := fun v => v.Exact) h3, fun p hp => (by cases hp), fun p hp => (by cases hp),
      fun _ => rfl⟩
  have hfx : ∀ n, τ = 0 → D = 2 ^ n → ExactEs w.entries → (∀ v, G v → v.Fits n ∧ v.Exact) →
      match random w.rng with
      | (.error e, r) => res = .error e ∧ w2.rng = r
      | (.ok _, _) => res = .ok () ∧ Exact0 τ n w2 o2 := by
    intro n h1 h2 h3 h4
    have := hf.exact n (hx1 n h1 h2 h3) h4
    rw [hext.rng] at this
    exact this
  rcases res with e | u
  · refine ⟨hsafe2, fun R h => (by cases h), fun n h1 h2 h3 h4 h5 h6 => ?_⟩
    have := hfx n h1 h2 h3 h4
    unfold Rav.plan
    revert this
    rcases hb : random w.rng with ⟨e' | pre, r1⟩
    · rw [PyM.bind_of_error hb]
      rintro ⟨g1, g2⟩
      exact ⟨by rw [Except.error.inj g1], g2⟩
    · rintro ⟨h, -⟩
      cases h
  obtain ⟨pre, hb, hv2⟩ := hf.ok rfl
  rw [hext.rng] at hb
  have hv2 : valsOf w2.entries o2.entries = pre := by rw [hv2]; simp
  have hx2 : ∀ n, τ = 0 → D = 2 ^ n → ExactEs w.entries → (∀ v, G v → v.Fits n ∧ v.Exact) → Exact0 τ n w2 o2 := by
    intro n h1 h2 h3 h4
    have := hfx n h1 h2 h3 h4
    rw [hb] at this
    exact this.2
  have hplan : ∀ n, Rav.plan n random prop rate cap threshold skip m w.rng =
      if skip then (.ok (pre, []), w2.rng)
      else (do
        let walk ← Metropolis.run n (circuit n pre)ᴴ threshold rate cap prop m.toNat ⟨[], 0⟩
        return (pre, walk) : PyM Rng _) w2.rng := by
    intro n
    unfold Rav.plan
    rw [PyM.bind_of_ok hb]
    split_ifs <;> rfl
  simp only
  by_cases hskip : skip
  · rw [if_pos hskip]
    refine Wp.pure ⟨hsafe2, fun R h => ?_, fun n h1 h2 h3 h4 h5 h6 => ?_⟩
    · cases h
      exact ⟨pre, w2.rng, o2, hb, le_rfl, hf.get, hf.dim, hf.arr, fun _ => ⟨rfl, rfl, hv2⟩, fun h => absurd hskip h⟩
    · rw [hplan, if_pos hskip]
      exact ⟨rfl, _, o2, rfl, rfl, hf.get, by rw [hv2]; simp [Rav.final], hx2 n h1 h2 h3 h4⟩
  rw [if_neg hskip]
  simp only [if_neg hskip] at hplan
  refine Wp.bind ((product_wp hf.wf hf.get).mono ?_)
  rintro res w3 ⟨o3, hp⟩
  have hw3 := hp.step.wf hf.wf
  have hs3 := hp.step.get hf.get
  have hsafe3 : Safe τ w w3 := hsafe2.only le_rfl hw3 hp.step.only (by rw [hp.step.betas])
  have hv3 : valsOf w3.entries o3.entries = pre := by
    rw [hp.same.entries, (hf.wf.seq hf.get).entries.vals_grow hp.step.grow, hv2]
  have hr3 : w3.rng = w2.rng := hp.step.rng
  rcases res with e | p
  · refine ⟨hsafe3, fun R h => (by cases h), fun n h1 h2 h3 h4 h5 h6 => ?_⟩
    obtain ⟨p, h, -⟩ := hp.exact n (hx2 n h1 h2 h3 h4)
    cases h
  simp only
  refine Wp.lift_bind (fun target htgt => ?_) fun err herr => ?_
  swap
  · refine ⟨hsafe3, fun R h => (by cases h), fun n h1 h2 h3 h4 h5 h6 => ?_⟩
    obtain ⟨p', h, h7, -⟩ := hp.exact n (hx2 n h1 h2 h3 h4)
    cases h
    subst h1
    rw [Unitary.inverse_eq h7] at herr
    cases herr
  have htx : ∀ n, τ = 0 → D = 2 ^ n → ExactEs w.entries → (∀ v, G v → v.Fits n ∧ v.Exact) →
      target.Exact (2 ^ n) ∧ target.matrix.toMatrix (2 ^ n) = (circuit n pre)ᴴ := by
    intro n h1 h2 h3 h4
    obtain ⟨p', h, h7, h8, -⟩ := hp.exact n (hx2 n h1 h2 h3 h4)
    cases h
    subst h1
    rw [Unitary.inverse_eq h7] at htgt
    cases htgt
    refine ⟨⟨h7.pos, h7.cols, h7.rows, ?_⟩, ?_⟩
    · simp only
      rw [Arr.toMatrix_ct]
      exact Unitary.ct_mem_su h7.2.2.2
    · simp only
      rw [Arr.toMatrix_ct, h8, hv2]
  obtain ⟨hc1, hc2⟩ := hcomp w3 target hw3
  by_cases hT : T
  swap
  · obtain ⟨e, h | h⟩ := hc2 hT
    · exact Wp.bind_error h ⟨hsafe3, fun R h => (by cases h), fun n h1 h2 h3 h4 h5 h6 => absurd h6 hT⟩
    · refine Wp.bind_error h ⟨hsafe3.trans ⟨⟨hw3.entries, hw3.seqs⟩, .refl _, fun _ o ho => ⟨o, ho, .refl o⟩,
        List.prefix_append _ _⟩, fun R h => (by cases h), fun n h1 h2 h3 h4 h5 h6 => absurd h6 hT⟩
  obtain ⟨C, hCD, hCr, hCc, hCs, hcp⟩ := hc1 hT
  rcases hcall : comp target w3 with ⟨res, w4⟩
  rw [hcall] at hcp
  have hsafe4 : Safe τ w3 w4 := by
    refine ⟨hcp.wf, hcp.grow, fun t o ho => ⟨o, ?_, .refl o⟩, ?_⟩
    · rw [hcp.others t (List.getElem?_eq_some_iff.mp ho).1]; exact ho
    · have hl := hcp.betaLen
      simp only [List.length_append, List.length_singleton] at hl
      rw [List.prefix_iff_getElem?]
      intro i hi
      have h1 := hcp.betaOther i (by rw [hCs]; omega)
      simp only at h1
      rw [h1, List.getElem?_append_left hi, List.getElem?_eq_getElem hi]
  have hsafe4' := hsafe3.trans hsafe4
  rcases res with e | R
  · refine Wp.bind_error hcall ⟨hsafe4', fun R h => (by cases h), fun n h1 h2 h3 h4 h5 h6 => ?_⟩
    obtain ⟨h7, h8⟩ := htx n h1 h2 h3 h4
    have hx3 := (hx2 n h1 h2 h3 h4)
    obtain ⟨p', -, -, -, h9⟩ := hp.exact n hx3
    have := hcp.exact n h1 (hCD.trans h2) (hx3.step hp.step h9).es h5 h7
    rw [h8, hCr, hCc] at this
    simp only [hr3] at this
    rw [hplan]
    revert this
    rcases hrun : Metropolis.run n (circuit n pre)ᴴ threshold rate cap prop m.toNat ⟨[], 0⟩ w2.rng with ⟨e' | tr, r⟩
    · rw [PyM.bind_of_error hrun]
      exact fun h => h
    · rintro ⟨h, -⟩
      cases h
  refine Wp.bind_ok hcall ?_
  obtain ⟨hRs, hRl, -, o4, b', hs4, hd4, ha4, -, hwalk⟩ := hcp.ok R rfl
  simp only at hRs hwalk
  rw [hr3] at hwalk
  have hs4' : w4.seqs[w.seqs.length]? = some o3 := by
    rw [hcp.others _ (List.getElem?_eq_some_iff.mp hs3).1]; exact hs3
  have hd3 : o3.dimension = D := by rw [hp.step.dim, hf.dim]
  have hok4 : SeqsOk w4 D [w.seqs.length, R.sequence] := by
    intro s hs
    simp only [List.mem_cons, List.not_mem_nil, or_false] at hs
    rcases hs with rfl | rfl
    · exact ⟨o3, hs4', hd3⟩
    · exact ⟨o4, hs4, hd4.trans hCD⟩
  refine Wp.bind ((combine_wp hcp.wf (fun s hs => ?_)).mono ?_)
  · obtain ⟨o, h, -⟩ := hok4 s hs
    exact ⟨o, h⟩
  rintro res w5 ⟨-, hcmb⟩
  have hcmb := hcmb D (by simp) hok4
  have hflat : flatVals w4 [w.seqs.length, R.sequence] = pre ++ valsOf w4.entries o4.entries := by
    rw [flatVals_cons hs4', flatVals_cons hs4, (hw3.seq hs3).entries.vals_grow hcp.grow, hv3]
    simp [flatVals]
  have hsafe5 := hsafe4'.trans hcmb.ext.safe
  have hcx : ∀ n, τ = 0 → D = 2 ^ n → ExactEs w.entries → (∀ v, G v → v.Fits n ∧ v.Exact) →
      (∀ v, G' v → v.Fits n ∧ v.Exact) → ∃ tr,
      Rav.plan n random prop rate cap threshold skip m w.rng = (.ok (pre, tr), w5.rng) ∧
      R.costByStep = tr.map (fun st => Metropolis.cost n (circuit n pre)ᴴ st.gates) ∧
      valsOf w4.entries o4.entries = Rav.final tr ∧ ExactEs w5.entries ∧
      ∃ t rs p, res = .ok t ∧ w5.seqs[t]? = some ⟨D, false, rs, some p, none, none⟩ ∧ p.Exact (2 ^ n) ∧
      p.matrix.toMatrix (2 ^ n) = circuit n (flatVals w4 [w.seqs.length, R.sequence]) := by
    intro n h1 h2 h3 h4 h5
    obtain ⟨h7, h8⟩ := htx n h1 h2 h3 h4
    have hx3 := (hx2 n h1 h2 h3 h4)
    obtain ⟨p', -, -, -, h9⟩ := hp.exact n hx3
    have hx3 := hx3.step hp.step h9
    have := hcp.exact n h1 (hCD.trans h2) hx3.es h5 h7
    rw [h8, hCr, hCc] at this
    simp only [hr3] at this
    rw [hplan]
    revert this
    rcases hrun : Metropolis.run n (circuit n pre)ᴴ threshold rate cap prop m.toNat ⟨[], 0⟩ w2.rng with ⟨e' | tr, r⟩
    · rintro ⟨h, -⟩
      cases h
    · rintro ⟨g1, g2, g3, o', g4, g5, g6⟩
      have gR := Except.ok.inj g1
      have hRc : R.costByStep = tr.map (fun st => Metropolis.cost n (circuit n pre)ᴴ st.gates) := by rw [gR]
      rw [← hRs, hs4] at g4
      cases g4
      rw [PyM.bind_of_ok hrun]
      refine ⟨tr, ?_, hRc, g5, hcmb.nonew.forall (P := fun v => v.Exact) g6.es, ?_⟩
      · rw [hcmb.ext.rng, g2]; rfl
      · refine hcmb.exact (fun t => t = w.seqs.length ∨ t = R.sequence) n h1 g6.es ?_ (by simp) h2
        rintro t' o ht' ho n' hn'
        rcases ht' with rfl | rfl
        · rw [hs4'] at ho; cases ho
          have : n' = n := Nat.pow_right_injective (le_refl 2) (hn'.symm.trans (hd3.trans h2))
          subst this
          exact hx3.prod.grow (hw3.seq hs3) hcp.grow
        · rw [hs4] at ho; cases ho
          have : n' = n := Nat.pow_right_injective (le_refl 2) (hn'.symm.trans (hd4.trans (hCD.trans h2)))
          subst this
          exact g6.prod
  rcases res with e | s5
  · refine ⟨hsafe5, fun R h => (by cases h), fun n h1 h2 h3 h4 h5 h6 => ?_⟩
    obtain ⟨tr, -, -, -, -, t', rs, p', h, -⟩ := hcx n h1 h2 h3 h4 h5
    cases h
  · obtain ⟨h1, rs, p5, hs5, hv5, -⟩ := hcmb.ok s5 rfl
    rw [hflat] at hv5
    refine Wp.pure ⟨hsafe5, fun R' h => ?_, fun n h2 h3 h4 h5 h6 h7 => ?_⟩
    · cases h
      refine ⟨pre, w2.rng, _, hb, ?_, hs5, rfl, rfl, fun h => absurd h hskip, fun _ => ⟨hT, _, b', hRl, ?_, hv5⟩⟩
      · have := (List.getElem?_eq_some_iff.mp hs4').1
        simp only at h1 ⊢
        omega
      · rw [← hCr, ← hCc, hcmb.ext.rng]
        exact hwalk
    · obtain ⟨tr, g1, g2, g3, g4, t', rs', p', g5, g6, g7, g8⟩ := hcx n h2 h3 h4 h5 h6
      cases g5
      rw [hs5] at g6
      cases g6
      rw [g1]
      refine ⟨rfl, _, _, rfl, g2, hs5, by rw [hv5, g3], h2, h3, g4, ?_, fun p hp => (by cases hp),
        fun h => (by cases h)⟩
      intro p hp
      cases hp
      refine ⟨g7, ?_⟩
      rw [g8]
      simp only
      rw [hv5, hflat]

/-! ## `generate_rav_sequence` -/

/-- Making a compiler and compiling. -/
noncomputable def newCompile (τ : Arith) (D : ℕ) (prims : List Primitive) (arr : Bool) (probs : Option (List ℝ)) (p : ℝ)
    (threshold : Option ℝ) (m : ℤ) (target : Unitary) : PyM World CompilerResult := do
  let C ← Compiler.new D prims arr probs p
  C.compile τ target threshold m

/-- What the constructor of the compiler and `compile` check. -/
def CompilerUsable (D : ℕ) (prims : List Primitive) (arr : Bool) : Prop :=
  (0 < D ∧ ∀ q ∈ prims, q.getDimension ≤ D) ∧ prims ≠ [] ∧ ¬ (arr = true ∧ prims.length > 1)

theorem newCompile_ok (τ : Arith) (D : ℕ) (prims : List Primitive) (arr : Bool) (probs : Option (List ℝ)) (p : ℝ)
    (threshold : Option ℝ) (m : ℤ) : CompOk τ (Generated τ D prims probs) ((ravCompiler D prims arr probs p 0).proposal τ) 0.1
      (((2 : ℝ) ^ D) ^ 2) D threshold m (CompilerUsable D prims arr) (newCompile τ D prims arr probs p threshold m) := by
  intro w target hw
  have hw' : ({ w with betas := w.betas ++ [0] } : World).WF τ := ⟨hw.entries, hw.seqs⟩
  by_cases hn : 0 < D ∧ ∀ q ∈ prims, q.getDimension ≤ D
  · have hnew := new_compiler_ok arr probs p 0.1 hn.1 hn.2 w
    have hcomp : newCompile τ D prims arr probs p threshold m target w =
        (ravCompiler D prims arr probs p w.betas.length).compile τ target threshold m
          { w with betas := w.betas ++ [0] } := by
      unfold newCompile
      rw [PyM.bind_of_ok hnew]
      rfl
    rw [hcomp]
    refine ⟨fun hT => ⟨ravCompiler D prims arr probs p w.betas.length, rfl, rfl, rfl, rfl, ?_⟩, fun hT => ?_⟩
    · exact compile_post (C := ravCompiler D prims arr probs p w.betas.length) ⟨hT.2.1, hT.2.2⟩ hw'
        (by simp [World.annealing, ravCompiler])
    · have hf : ¬ (ravCompiler D prims arr probs p w.betas.length).Truthy := fun h => hT ⟨hn, h⟩
      rcases compile_falsy (τ := τ) (target := target) (threshold := threshold) (m := m) hf
        { w with betas := w.betas ++ [0] } with h | h
      · exact ⟨_, .inr h⟩
      · exact ⟨_, .inr h⟩
  · refine ⟨fun hT => absurd hT.1 hn, fun _ => ⟨.assertion, .inl ?_⟩⟩
    unfold newCompile
    rw [PyM.bind_of_error (e := .assertion) (s' := w)]
    unfold Compiler.new
    by_cases h1 : D > 0
    · rw [PyM.bind_of_ok (PyM.assert_of h1 w),
        PyM.bind_of_error (PyM.assert_of_not (fun h2 => hn ⟨h1, h2⟩) w)]
    · rw [PyM.bind_of_error (PyM.assert_of_not h1 w)]

/-- The checks at the beginning of both functions. -/
noncomputable def checked {α : Type} (P Q : Prop) (threshold : Option ℝ) (f : ℝ → PyM World α) : PyM World α := do
  PyM.assert P
  PyM.assert Q
  let t ← Verification.checkThreshold threshold
  f t

theorem checked_ok {α : Type} {P Q : Prop} {t : ℝ} (f : ℝ → PyM World α) (hP : P) (hQ : Q) (ht : 0 ≤ t ∧ t ≤ 1)
    (w : World) : checked P Q (some t) f w = f t w := by
  have e : Verification.checkThreshold (some t) w = (.ok t, w) := by
    show (PyM.assert (t ≥ 0 ∧ t ≤ 1) >>= fun _ => (pure t : PyM World ℝ)) w = _
    rw [PyM.bind_of_ok (PyM.assert_of (p := t ≥ 0 ∧ t ≤ 1) ht w)]
    rfl
  unfold checked
  rw [PyM.bind_of_ok (PyM.assert_of hP w), PyM.bind_of_ok (PyM.assert_of hQ w), PyM.bind_of_ok e]

theorem checked_none {α : Type} {P Q : Prop} (f : ℝ → PyM World α) (hP : P) (hQ : Q) (w : World) :
    checked P Q none f w = (.error .typeError, w) := by
  unfold checked
  rw [PyM.bind_of_ok (PyM.assert_of hP w), PyM.bind_of_ok (PyM.assert_of hQ w)]
  rfl

theorem checked_some {α : Type} {P Q : Prop} {t : ℝ} (f : ℝ → PyM World α) (h : ¬ (P ∧ Q ∧ 0 ≤ t ∧ t ≤ 1))
    (w : World) : checked P Q (some t) f w = (.error .assertion, w) := by
  unfold checked
  by_cases hP : P
  swap
  · rw [PyM.bind_of_error (PyM.assert_of_not hP w)]
  rw [PyM.bind_of_ok (PyM.assert_of hP w)]
  by_cases hQ : Q
  swap
  · rw [PyM.bind_of_error (PyM.assert_of_not hQ w)]
  rw [PyM.bind_of_ok (PyM.assert_of hQ w)]
  have e : Verification.checkThreshold (some t) w = (.error .assertion, w) := by
    show (PyM.assert (t ≥ 0 ∧ t ≤ 1) >>= fun _ => (pure t : PyM World ℝ)) w = _
    rw [PyM.bind_of_error (PyM.assert_of_not (fun h' => h ⟨hP, hQ, h'⟩) w)]
  rw [PyM.bind_of_error e]

theorem checked_bad {α : Type} {P Q : Prop} {threshold : Option ℝ} (f : ℝ → PyM World α) (h : ¬ (P ∧ Q))
    (w : World) : checked P Q threshold f w = (.error .assertion, w) := by
  unfold checked
  by_cases hP : P
  swap
  · rw [PyM.bind_of_error (PyM.assert_of_not hP w)]
  rw [PyM.bind_of_ok (PyM.assert_of hP w)]
  rw [PyM.bind_of_error (PyM.assert_of_not (fun hQ => h ⟨hP, hQ⟩) w)]

/-- Either the function stops at a check, without any effect, or the checks pass. -/
theorem checked_cases {α : Type} (P Q : Prop) (threshold : Option ℝ) (f : ℝ → PyM World α) (w : World) :
    (∃ e, checked P Q threshold f w = (.error e, w)) ∨
      ∃ t, threshold = some t ∧ P ∧ Q ∧ 0 ≤ t ∧ t ≤ 1 ∧ checked P Q threshold f w = f t w := by
  by_cases hPQ : P ∧ Q
  swap
  · exact .inl ⟨_, checked_bad f hPQ w⟩
  rcases threshold with _ | t
  · exact .inl ⟨_, checked_none f hPQ.1 hPQ.2 w⟩
  · by_cases ht : 0 ≤ t ∧ t ≤ 1
    · exact .inr ⟨t, rfl, hPQ.1, hPQ.2, ht.1, ht.2, checked_ok f hPQ.1 hPQ.2 ht w⟩
    · exact .inl ⟨_, checked_some f (fun h => ht h.2.2) w⟩

theorem rav_eq (τ : Arith) (D : ℕ) (prims : List Primitive) (arr : Bool) (L : ℤ) (threshold : Option ℝ) (p : ℝ)
    (probs : Option (List ℝ)) (m : ℤ) : Verification.generateRavSequence τ D prims arr L threshold p probs m =
      checked (∀ q ∈ prims, q.getDimension ≤ D) (L ≥ 0) threshold fun t =>
        ravWith τ D (fun s => appendBlocks τ (do let e ← createRandomSequenceEntry τ D prims probs; return [e]) s L.toNat)
          (t = 0 ∨ m = 0) (newCompile τ D prims arr probs p (some t) m) := by
  unfold Verification.generateRavSequence checked ravWith newCompile
  simp only [appendRandomEntries_eq, PyM.bind_assoc']

theorem rav_post {τ : Arith} (D : ℕ) (prims : List Primitive) (arr : Bool) (k : ℕ) (t p : ℝ) (probs : Option (List ℝ))
    (m : ℤ) {w : World} (hw : w.WF τ) :
    Wp (ravWith τ D (fun s => appendBlocks τ (do let e ← createRandomSequenceEntry τ D prims probs; return [e]) s k)
        (t = 0 ∨ m = 0) (newCompile τ D prims arr probs p (some t) m))
      (RavPost τ (Generated τ D prims probs) (Generated τ D prims probs)
        (Rav.blocks (Metropolis.one (createRandomEntryVal τ D prims probs)) k) ((ravCompiler D prims arr probs p 0).proposal τ) 0.1
        (((2 : ℝ) ^ D) ^ 2) D (some t) (t = 0 ∨ m = 0) m (CompilerUsable D prims arr) w) w :=
  ravWith_wp (fill_blocks (mk_one fun r _ r' h => ⟨r, r', h⟩) k) (newCompile_ok τ D prims arr probs p (some t) m) _ hw

theorem rav_safe {τ : Arith} {D : ℕ} {prims : List Primitive} {arr : Bool} {L : ℤ} {threshold : Option ℝ} {p : ℝ}
    {probs : Option (List ℝ)} {m : ℤ} {w : World} (hw : w.WF τ) :
    Safe τ w (Verification.generateRavSequence τ D prims arr L threshold p probs m w).2 ∧
    ∀ R, (Verification.generateRavSequence τ D prims arr L threshold p probs m w).1 = .ok R →
      w.seqs.length ≤ R.sequence ∧
      ∃ o, (Verification.generateRavSequence τ D prims arr L threshold p probs m w).2.seqs[R.sequence]? = some o := by
  rw [rav_eq]
  rcases checked_cases (∀ q ∈ prims, q.getDimension ≤ D) (L ≥ 0) threshold (fun t =>
    ravWith τ D (fun s => appendBlocks τ (do let e ← createRandomSequenceEntry τ D prims probs; return [e]) s L.toNat)
          (t = 0 ∨ m = 0) (newCompile τ D prims arr probs p (some t) m)) w with ⟨e, h⟩ | ⟨t, -, -, -, -, -, h⟩
  · rw [h]
    exact ⟨.refl hw, fun R hR => (by cases hR)⟩
  · rw [h]
    have hp := rav_post D prims arr L.toNat t p probs m hw
    rw [Wp] at hp
    refine ⟨hp.safe, fun R hR => ?_⟩
    obtain ⟨pre, r1, o', -, h1, h2, -⟩ := hp.ok R hR
    exact ⟨h1, o', h2⟩

/-! ## `generate_layered_rav_sequence` -/

/-- Making a compiler and compiling with layers. -/
noncomputable def newCompileLayered (τ : Arith) (D : ℕ) (counts : List (Primitive × ℤ)) (p : ℝ)
    (threshold : Option ℝ) (m : ℤ) (target : Unitary) : PyM World CompilerResult := do
  let C ← Compiler.new D (counts.map (·.1)) false none p
  C.compileLayered τ target counts threshold m

theorem newCompileLayered_ok (τ : Arith) (D : ℕ) (counts : List (Primitive × ℤ)) (p : ℝ)
    (threshold : Option ℝ) (m : ℤ) :
    CompOk τ (GeneratedLayer τ D counts)
      ((ravCompiler D (counts.map (·.1)) false none p 0).layeredProposal τ counts) 0.1
      (((2 : ℝ) ^ D) ^ 2) D threshold m (0 < D ∧ ∀ pc ∈ counts, pc.1.getDimension ≤ D)
      (newCompileLayered τ D counts p threshold m) := by
  intro w target hw
  have hw' : ({ w with betas := w.betas ++ [0] } : World).WF τ := ⟨hw.entries, hw.seqs⟩
  have hall : (∀ q ∈ counts.map (·.1), q.getDimension ≤ D) ↔ ∀ pc ∈ counts, pc.1.getDimension ≤ D := by simp
  refine ⟨fun hT => ⟨ravCompiler D (counts.map (·.1)) false none p w.betas.length, rfl, rfl, rfl, rfl, ?_⟩,
    fun hT => ⟨.assertion, .inl ?_⟩⟩
  · have hnew := new_compiler_ok false none p 0.1 hT.1 (hall.mpr hT.2) w
    have hcomp : newCompileLayered τ D counts p threshold m target w =
        (ravCompiler D (counts.map (·.1)) false none p w.betas.length).compileLayered τ target counts threshold m
          { w with betas := w.betas ++ [0] } := by
      unfold newCompileLayered
      rw [PyM.bind_of_ok hnew]
      rfl
    rw [hcomp]
    exact compileLayered_post (C := ravCompiler D (counts.map (·.1)) false none p w.betas.length) (b := 0) hw'
        (by simp [World.annealing, ravCompiler])
  · unfold newCompileLayered
    rw [PyM.bind_of_error (e := .assertion) (s' := w)]
    unfold Compiler.new
    by_cases h1 : D > 0
    · rw [PyM.bind_of_ok (PyM.assert_of h1 w),
        PyM.bind_of_error (PyM.assert_of_not (fun h2 => hT ⟨h1, hall.mp h2⟩) w)]
    · rw [PyM.bind_of_error (PyM.assert_of_not h1 w)]

theorem layeredRav_eq (τ : Arith) (D : ℕ) (counts : List (Primitive × ℤ)) (L : ℤ) (threshold : Option ℝ) (p : ℝ)
    (m : ℤ) : Verification.generateLayeredRavSequence τ D counts L threshold p m =
      checked (∀ pc ∈ counts, pc.1.getDimension ≤ D) (L ≥ 0) threshold fun t =>
        ravWith τ D (fun s => appendBlocks τ (createRandomLayer τ D counts) s L.toNat) (t = 0 ∨ m = 0)
      (newCompileLayered τ D counts p (some t) m) := by
  unfold Verification.generateLayeredRavSequence checked ravWith newCompileLayered
  simp only [appendRandomLayers_eq, PyM.bind_assoc']

theorem layeredRav_post {τ : Arith} (D : ℕ) (counts : List (Primitive × ℤ)) (k : ℕ) (t p : ℝ) (m : ℤ) {w : World}
    (hw : w.WF τ) :
    Wp (ravWith τ D (fun s => appendBlocks τ (createRandomLayer τ D counts) s k) (t = 0 ∨ m = 0)
      (newCompileLayered τ D counts p (some t) m))
      (RavPost τ (GeneratedLayer τ D counts) (GeneratedLayer τ D counts)
        (Rav.blocks (Metropolis.layer (fun p => createRandomEntryVal τ D [p] none) counts) k)
        ((ravCompiler D (counts.map (·.1)) false none p 0).layeredProposal τ counts) 0.1
        (((2 : ℝ) ^ D) ^ 2) D (some t) (t = 0 ∨ m = 0) m (0 < D ∧ ∀ pc ∈ counts, pc.1.getDimension ≤ D) w) w :=
  ravWith_wp (fill_blocks (mk_layer fun pc hpc r _ r' h => ⟨pc, hpc, r, r', h⟩) k)
    (newCompileLayered_ok τ D counts p (some t) m) _ hw

theorem layeredRav_safe {τ : Arith} {D : ℕ} {counts : List (Primitive × ℤ)} {L : ℤ} {threshold : Option ℝ} {p : ℝ}
    {m : ℤ} {w : World} (hw : w.WF τ) :
    Safe τ w (Verification.generateLayeredRavSequence τ D counts L threshold p m w).2 ∧
    ∀ R, (Verification.generateLayeredRavSequence τ D counts L threshold p m w).1 = .ok R →
      w.seqs.length ≤ R.sequence ∧
      ∃ o, (Verification.generateLayeredRavSequence τ D counts L threshold p m w).2.seqs[R.sequence]? = some o := by
  rw [layeredRav_eq]
  rcases checked_cases (∀ pc ∈ counts, pc.1.getDimension ≤ D) (L ≥ 0) threshold (fun t =>
    ravWith τ D (fun s => appendBlocks τ (createRandomLayer τ D counts) s L.toNat) (t = 0 ∨ m = 0)
      (newCompileLayered τ D counts p (some t) m)) w with
    ⟨e, h⟩ | ⟨t, -, -, -, -, -, h⟩
  · rw [h]
    exact ⟨.refl hw, fun R hR => (by cases hR)⟩
  · rw [h]
    have hp := layeredRav_post D counts L.toNat t p m hw
    rw [Wp] at hp
    refine ⟨hp.safe, fun R hR => ?_⟩
    obtain ⟨pre, r1, o', -, h1, h2, -⟩ := hp.ok R hR
    exact ⟨h1, o', h2⟩

end Stoq
