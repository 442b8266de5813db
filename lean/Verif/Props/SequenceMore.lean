import Verif.Props.Sequence

/-!
# Properties C19 - C22: combine, isolation, rejected entries, array-backed sequences
-/

namespace Stoq

open Matrix World

/-- In a reachable state the client's objects are those of a specification state, and every next call does what
the specification says. -/
theorem reachable_refines {c : Client} (hc : c.Reachable) :
    ∃ p : Plain, (∀ i, c.seq i = p.seqs[i]?) ∧ (∀ i, c.entry i = p.entries[i]?) ∧
      c.seqs.length = p.seqs.length ∧ (∀ v ∈ p.seqs, ∃ n, v.dimension = 2 ^ n) ∧
      ∀ op : Op, op.OnQubits → op.NoSharedInverse c → SameResult (c.step 0 op).1 (p.step op).1 ∧
        (∀ i, (c.step 0 op).2.seq i = (p.step op).2.seqs[i]?) ∧
        (∀ i, (c.step 0 op).2.entry i = (p.step op).2.entries[i]?) := by
  obtain ⟨p, hp⟩ := hc.rel
  refine ⟨p, seq_of_forall₂ hp.seqs, entry_of_forall₂ hp.ents, hp.seqs.length_eq, hp.pow, fun op h1 h2 => ?_⟩
  obtain ⟨h3, h4⟩ := step_refines hp h1 h2
  exact ⟨h3, seq_of_forall₂ h4.seqs, entry_of_forall₂ h4.ents⟩

/-! ## C19: combine() -/

theorem getAll_of_map {α : Type} {l : List α} {is : List ℕ} {as : List α}
    (h : is.map (fun i => l[i]?) = as.map some) : getAll l is = some as := by
  induction is generalizing as with
  | nil => rcases as with _ | ⟨a, as⟩ <;> simp_all [getAll]
  | cons i is ih =>
    rcases as with _ | ⟨a, as⟩
    · simp at h
    · simp only [List.map_cons, List.cons.injEq] at h
      unfold getAll
      rw [h.1, ih h.2]

theorem circuit_flatten (n : ℕ) (ess : List (List EntryVal)) :
    circuit n ess.flatten = (ess.map (circuit n)).reverse.prod := by
  induction ess with
  | nil => simp [circuit]
  | cons es ess ih => rw [List.flatten_cons, circuit_append, ih]; simp

/-- `combine` of at least one sequence, all of the same dimension: a new sequence with the concatenated entries
whose product is the product of the given sequences' products, the first one rightmost; the arguments (and all
other sequences) are unchanged. -/
theorem C19_combine {c : Client} (hc : c.Reachable) {ss : List ℕ} {vs : List SeqView} {D : ℕ}
    (hvs : ss.map c.seq = vs.map some) (hne : vs ≠ []) (hD : ∀ v ∈ vs, v.dimension = D) (c' : Client)
    (hc' : c' = (c.step 0 (.combine ss)).2) :
    (c.step 0 (.combine ss)).1 = .ok .handle ∧
    c'.seq c.seqs.length = some ⟨D, false, (vs.map SeqView.entries).flatten, none⟩ ∧
    (∀ i, i ≠ c.seqs.length → c'.seq i = c.seq i) ∧
    ∃ n u, D = 2 ^ n ∧ (c'.step 0 (.product c.seqs.length)).1 = .ok (.unitary u) ∧
      u.Holds (vs.map fun v => circuit n v.entries).reverse.prod := by
  obtain ⟨p, h1, h2, h3, -, h5⟩ := reachable_refines hc
  obtain ⟨h6, h7, -⟩ := h5 (.combine ss) trivial trivial
  have hall : getAll p.seqs ss = some vs := getAll_of_map (by rw [← hvs]; exact List.map_congr_left fun i _ => (h1 i).symm)
  have hplain : p.step (.combine ss) = (.ok .handle, ⟨p.entries,
      p.seqs ++ [⟨D, false, (vs.map SeqView.entries).flatten, none⟩]⟩) := by
    simp only [Plain.step, Plain.with_, hall]
    rcases vs with _ | ⟨v, vs⟩
    · exact absurd rfl hne
    · have hv := hD v (by simp)
      simp only
      rw [if_pos fun v' hv' => (hD v' hv').trans hv.symm, hv]
  rw [hplain] at h6 h7
  rw [← hc'] at h7
  have hview : c'.seq c.seqs.length = some ⟨D, false, (vs.map SeqView.entries).flatten, none⟩ := by
    rw [h7, h3]; simp
  refine ⟨?_, hview, fun i hi => ?_, ?_⟩
  · rcases hres : (c.step 0 (.combine ss)).1 with e | obs
    · rw [hres] at h6; exact absurd h6 (by simp [SameResult])
    · rw [hres] at h6
      cases obs with
      | handle => rfl
      | _ => exact absurd h6 (by simp [SameResult, SameObs])
  · rw [h7, h1]
    rcases lt_or_gt_of_ne hi with h | h
    · rw [List.getElem?_append_left (by omega)]
    · rw [List.getElem?_eq_none (by simp; omega), List.getElem?_eq_none (by omega)]
  · obtain ⟨n, u, h8, h9, h10, -⟩ := C15_product (hc' ▸ hc.step (op := .combine ss) trivial trivial) hview
    refine ⟨n, u, h8, h9, ?_⟩
    simp only at h10
    rw [circuit_flatten, List.map_map] at h10
    exact h10

/-- For every matrix arithmetic: `combine()` without arguments, or with sequences of different dimensions,
raises AssertionError and changes nothing. -/
theorem C19_combine_rejects {τ : Arith} {c : Client} (hc : c.ReachableAny τ) {ss : List ℕ} {vs : List SeqView}
    (hvs : ss.map c.seq = vs.map some) (hbad : ∀ D, vs = [] ∨ ∃ v ∈ vs, v.dimension ≠ D) :
    c.step τ (.combine ss) = (.error .assertion, c) := by
  have hok := hc.ok
  -- the objects behind the handles
  have key : ∃ rs, getAll c.seqs ss = some rs ∧ rs.map c.world.view = vs.map some := by
    clear hbad
    induction ss generalizing vs with
    | nil =>
      rcases vs with _ | ⟨v, vs⟩
      · exact ⟨[], rfl, rfl⟩
      · simp at hvs
    | cons i ss ih =>
      rcases vs with _ | ⟨v, vs⟩
      · simp at hvs
      · simp only [List.map_cons, List.cons.injEq] at hvs
        obtain ⟨rs, h1, h2⟩ := ih hvs.2
        obtain ⟨r, h3, h4⟩ := Option.bind_eq_some_iff.mp hvs.1
        refine ⟨r :: rs, ?_, by simp [h4, h2]⟩
        unfold getAll
        rw [h3, h1]
  obtain ⟨rs, h1, h2⟩ := key
  have hview : ∀ r ∈ rs, ∃ v ∈ vs, c.world.view r = some v := by
    intro r hr
    have : c.world.view r ∈ rs.map c.world.view := List.mem_map_of_mem hr
    rw [h2] at this
    obtain ⟨v, hv, hv'⟩ := List.mem_map.mp this
    exact ⟨v, hv, hv'.symm⟩
  have hview' : ∀ v ∈ vs, ∃ r ∈ rs, c.world.view r = some v := by
    intro v hv
    have : some v ∈ vs.map some := List.mem_map_of_mem hv
    rw [← h2] at this
    exact List.mem_map.mp this
  have hw := combine_wp hok.wf (ss := rs) fun r hr => by
    obtain ⟨v, -, hv⟩ := hview r hr
    obtain ⟨o, ho, -⟩ := view_eq_some.mp hv
    exact ⟨o, ho⟩
  unfold Wp at hw
  obtain ⟨h3, h4⟩ := hw.1 fun D => by
    rcases hbad D with h | ⟨v, hv, hvD⟩
    · subst h; left; simpa using h2
    · right
      intro hall
      obtain ⟨r, hr, hrv⟩ := hview' v hv
      obtain ⟨o, ho, rfl⟩ := view_eq_some.mp hrv
      obtain ⟨o', ho', hD⟩ := hall r hr
      rw [ho] at ho'; cases ho'
      exact hvD hD
  simp only [Client.step, Client.with_, h1]
  unfold Client.call
  rcases hm : Seq.combine τ rs c.world with ⟨e | t, w⟩
  · rw [hm] at h3 h4; simp only at h3 h4; cases h3; rw [h4]
  · rw [hm] at h3; cases h3

/-! ## C20: isolation -/

/-- For every matrix arithmetic, every state, every call with every outcome (including exceptions part way
through): sequences other than the one the call changes keep dimension, entries and undo state; entry objects
keep their unitary and qubits; the random generator and the compilers' annealing parameters are not touched. -/
theorem C20_isolation {τ : Arith} {c : Client} (hc : c.ReachableAny τ) (op : Op) :
    (∀ i v, op.changes ≠ some i → c.seq i = some v → (c.step τ op).2.seq i = some v) ∧
    (∀ i v, c.entry i = some v → (c.step τ op).2.entry i = some v) ∧
    (c.step τ op).2.world.rng = c.world.rng ∧ (c.step τ op).2.world.betas = c.world.betas := by
  have h := step_frame hc.ok op
  exact ⟨fun i v h1 h2 => h.seq h1 h2, fun i v h1 => h.entry h1, h.rng, h.betas⟩

/-- The same for whole programs. -/
theorem C20_isolation_run {τ : Arith} {c : Client} (hc : c.ReachableAny τ) (ops : List Op) {i : ℕ} {v : SeqView}
    (hops : ∀ op ∈ ops, op.changes ≠ some i) (hv : c.seq i = some v) : (c.run τ ops).2.seq i = some v :=
  run_seq hc.ok ops hops hv

/-- The product of a sequence is not changed by calls on other sequences. -/
theorem C20_product_isolation {c : Client} (hc : c.Reachable) (op : Op) (hq : op.OnQubits)
    (hi : op.NoSharedInverse c) {i : ℕ} (hne : op.changes ≠ some i) {v : SeqView} (hv : c.seq i = some v) :
    ∃ n u u', v.dimension = 2 ^ n ∧ (c.step 0 (.product i)).1 = .ok (.unitary u) ∧
      ((c.step 0 op).2.step 0 (.product i)).1 = .ok (.unitary u') ∧
      u.Holds (circuit n v.entries) ∧ u'.Holds (circuit n v.entries) := by
  obtain ⟨n, u, h1, h2, h3, -⟩ := C15_product hc hv
  obtain ⟨n', u', h4, h5, h6, -⟩ := C15_product (hc.step hq hi) ((C20_isolation hc.any op).1 i v hne hv)
  have hn : n' = n := Nat.pow_right_injective (le_refl 2) (h4.symm.trans h1)
  subst hn
  exact ⟨n', u, u', h1, h2, h5, h3, h6⟩

/-! ## C21: rejected entries -/

/-- For every matrix arithmetic and every state: appending an entry that does not fit raises AssertionError and
changes nothing at all. -/
theorem C21_rejected_unchanged {τ : Arith} {c : Client} (hc : c.ReachableAny τ) {i j : ℕ} {v : SeqView} {e : EntryVal}
    (hv : c.seq i = some v) (he : c.entry j = some e) (hf : ¬ Plain.fits v.dimension e) (b : Bool) :
    c.step τ (.appendFirst i j b) = (.error .assertion, c) ∧
    c.step τ (.appendLast i j b) = (.error .assertion, c) := by
  obtain ⟨r, o, h1, h2, rfl⟩ := seq_eq_some hv
  obtain ⟨r', x, h3, h4, rfl⟩ := entry_eq_some he
  have hok := hc.ok
  have hf' : ¬ FitsDim x.toVal o.dimension := fun h =>
    hf ((fits_iff_fitsDim (hok.wf.entries x (List.mem_of_getElem? h4)).wf).mpr h)
  have key : ∀ (m : PyM World Unit) (upd : List ℕ),
      (Wp m (fun res w' => ∃ o', AppendPost τ c.world r o x b upd res w' o') c.world) →
      c.call m (fun _ _ => .unit) (fun _ => []) (fun _ => []) = (.error .assertion, c) := by
    intro m upd hm
    unfold Wp at hm
    obtain ⟨o', hp⟩ := hm
    obtain ⟨h5, h6, -⟩ := hp.reject hf'
    unfold Client.call
    rcases hmm : m c.world with ⟨e | a, w⟩
    · rw [hmm] at h5 h6; simp only at h5 h6; cases h5; rw [h6]
    · rw [hmm] at h5; cases h5
  constructor
  · simp only [Client.step, Client.with_, h1, h3]
    exact key _ _ (appendFirst_wp hok.wf h2 h4 b)
  · simp only [Client.step, Client.with_, h1, h3]
    exact key _ _ (appendLast_wp hok.wf h2 h4 b)

/-- On systems of qubits a fitting entry is never rejected and the sequence then has it at the chosen end. -/
theorem C21_fitting_accepted {c : Client} (hc : c.Reachable) {i j : ℕ} {v : SeqView} {e : EntryVal}
    (hv : c.seq i = some v) (hl : v.isArray = false) (he : c.entry j = some e) (hf : Plain.fits v.dimension e)
    (b : Bool) :
    ((c.step 0 (.appendFirst i j b)).1 = .ok .unit ∧ (c.step 0 (.appendFirst i j b)).2.seq i =
      some ⟨v.dimension, false, e :: v.entries, if b then some v.entries else v.undo⟩) ∧
    ((c.step 0 (.appendLast i j b)).1 = .ok .unit ∧ (c.step 0 (.appendLast i j b)).2.seq i =
      some ⟨v.dimension, false, v.entries ++ [e], if b then some v.entries else v.undo⟩) := by
  obtain ⟨p, h1, h2, h3, -, h5⟩ := reachable_refines hc
  have hpi : p.seqs[i]? = some v := (h1 i).symm.trans hv
  have hpj : p.entries[j]? = some e := (h2 j).symm.trans he
  have hlt := (List.getElem?_eq_some_iff.mp hpi).1
  have key : ∀ (op : Op) (new : List EntryVal), op.OnQubits → op.NoSharedInverse c →
      p.step op = p.change i v b new → (c.step 0 op).1 = .ok .unit ∧
      (c.step 0 op).2.seq i = some ⟨v.dimension, false, new, if b then some v.entries else v.undo⟩ := by
    intro op new ho ho' hstep
    obtain ⟨h6, h7, -⟩ := h5 op ho ho'
    rw [hstep] at h6 h7
    unfold Plain.change at h6 h7
    simp only [hl, Bool.false_eq_true, if_false] at h6 h7
    constructor
    · rcases hres : (c.step 0 op).1 with e | obs
      · rw [hres] at h6; exact absurd h6 (by simp [SameResult])
      · rw [hres] at h6
        cases obs with
        | unit => rfl
        | _ => exact absurd h6 (by simp [SameResult, SameObs])
    · rw [h7, List.getElem?_set_self hlt]
  constructor
  · exact key _ _ trivial trivial (by simp only [Plain.step, Plain.with_, hpi, hpj]; rw [if_pos hf])
  · exact key _ _ trivial trivial (by simp only [Plain.step, Plain.with_, hpi, hpj]; rw [if_pos hf])

/-- On a system whose dimension is not a power of two, appending an entry that passes the validity check to a
sequence whose product was requested before always raises, but (with `save_undo=False`) the entry stays in the
list while the stored product still is the old one. -/
theorem C21_not_power_of_two {τ : Arith} {c : Client} (hc : c.ReachableAny τ) {i j : ℕ} {v : SeqView} {e : EntryVal}
    (hv : c.seq i = some v) (hl : v.isArray = false) (he : c.entry j = some e) (hf : Plain.fits v.dimension e)
    (hpow : ∀ k, v.dimension ≠ 2 ^ k) {u : Unitary} (hprod : (c.step τ (.product i)).1 = .ok (.unitary u))
    (c1 c2 : Client) (hc1 : c1 = (c.step τ (.product i)).2) (hc2 : c2 = (c1.step τ (.appendLast i j false)).2) :
    (∃ err, (c1.step τ (.appendLast i j false)).1 = .error err) ∧
    c2.seq i = some { v with entries := v.entries ++ [e] } ∧
    (c2.step τ (.product i)).1 = .ok (.unitary u) := by
  obtain ⟨r, o, h1, h2, rfl⟩ := seq_eq_some hv
  have hok := hc.ok
  -- the product call
  have hw := product_wp hok.wf h2
  unfold Wp at hw
  obtain ⟨o1, hp1⟩ := hw
  have hstep1 : c.step τ (.product i) =
      c.call (Seq.product τ r) (fun u _ => .unitary u) (fun _ => []) (fun _ => []) := by
    simp only [Client.step, Client.with_, h1]
  have hfr1 := step_frame hok (.product i)
  rw [← hc1] at hfr1
  have hok1 := hfr1.ok
  have hv1 := hfr1.seq (by simp [Op.changes]) hv
  have he1 := hfr1.entry he
  rw [hstep1] at hprod hc1
  unfold Client.call at hprod hc1
  rcases hm : Seq.product τ r c.world with ⟨err | u', w1⟩
  · rw [hm] at hprod; cases hprod
  rw [hm] at hprod hc1 hp1
  simp only [List.append_nil] at hprod hc1
  cases hprod
  have ho1 : c1.world.seqs[r]? = some o1 := by rw [hc1]; exact hp1.step.get h2
  have hs1 : c1.seqs[i]? = some r := by rw [hc1]; exact h1
  have hprod1 : o1.product = some u := hp1.stored u rfl
  obtain ⟨r', x, h3, h4, rfl⟩ := entry_eq_some he1
  -- the append call
  have hfit : FitsDim x.toVal o1.dimension := by
    rw [hp1.same.dim]
    exact (fits_iff_fitsDim (hok1.wf.entries x (List.mem_of_getElem? h4)).wf).mp hf
  have hw2 := appendLast_wp hok1.wf ho1 h4 false
  unfold Wp at hw2
  obtain ⟨o2, hp2⟩ := hw2
  have harr : o1.isArray = false := hp1.same.arr.trans hl
  have hmut := (hp2.accept hfit).1 harr
  have hstep2 : c1.step τ (.appendLast i j false) =
      c1.call (Seq.appendLast τ r r' false) (fun _ _ => .unit) (fun _ => []) (fun _ => []) := by
    simp only [Client.step, Client.with_, hs1, h3]
  have hfr2 := step_frame hok1 (.appendLast i j false)
  rw [← hc2] at hfr2
  rw [hstep2] at hc2 ⊢
  unfold Client.call at hc2 ⊢
  rcases hm2 : Seq.appendLast τ r r' false c1.world with ⟨err | a, w2⟩
  swap
  · exfalso
    rw [hm2] at hmut
    obtain ⟨k, hk⟩ := hmut.pow (by cases a; rfl) (by rw [hprod1]; simp)
    exact hpow k (hp1.same.dim.symm.trans hk)
  rw [hm2] at hmut hc2
  simp only at hc2 ⊢
  have ho2 : c2.world.seqs[r]? = some o2 := by rw [hc2]; exact hmut.step.get ho1
  have hs2 : c2.seqs[i]? = some r := by rw [hc2]; exact hs1
  refine ⟨⟨err, rfl⟩, ?_, ?_⟩
  · obtain ⟨r1, o1', h5, h6, h7⟩ := seq_eq_some hv1
    rw [hs1] at h5; cases h5
    rw [ho1] at h6; cases h6
    unfold Client.seq
    rw [hs2]
    simp only [Option.bind_some]
    refine view_eq_some.mpr ⟨o2, ho2, ?_⟩
    have hlt := (hok1.wf.seq ho1).entries.lt
    have hent : valsOf c2.world.entries o2.entries = valsOf c1.world.entries o1.entries ++ [x.toVal] := by
      rw [hmut.entries rfl, hc2]
      simp only
      rw [valsOf_grow _ hmut.step.grow, valsOf_append, valsOf_cons h4, valsOf_nil]
      intro a ha
      rcases List.mem_append.mp ha with ha | ha
      · exact hlt a ha
      · rw [List.mem_singleton] at ha; subst ha; exact (List.getElem?_eq_some_iff.mp h4).1
    have hundo : o2.previousEntries.map (valsOf c2.world.entries) = o1.previousEntries.map (valsOf c1.world.entries) := by
      have := hmut.undo
      rw [hc2]; simpa using this
    rw [h7]
    simp only [viewOf, hent, hundo, hmut.step.dim, hmut.step.arr]
  · have hw3 := product_wp hfr2.ok.wf ho2
    unfold Wp at hw3
    obtain ⟨o3, hp3⟩ := hw3
    have h8 := (hp3.cached u ((hmut.stuck (by simp)).trans hprod1)).1
    simp only [Client.step, Client.with_, hs2]
    unfold Client.call
    rcases hm3 : Seq.product τ r c2.world with ⟨err | u3, w3⟩
    · rw [hm3] at h8; cases h8
    · rw [hm3] at h8; simp only at h8; cases h8; rfl

/-! ## C22: array-backed sequences -/

/-- For every matrix arithmetic and every state: no mutator succeeds on an array-backed sequence (removing from
an empty one does nothing), its entries stay as they are, and `inverse()` raises AttributeError. -/
theorem C22_array_never_changes {τ : Arith} {c : Client} (hc : c.ReachableAny τ) {i : ℕ} {v : SeqView}
    (hv : c.seq i = some v) (ha : v.isArray = true) :
    (∀ j b obs, j < c.entries.length → (c.step τ (.appendFirst i j b)).1 ≠ .ok obs) ∧
    (∀ j b obs, j < c.entries.length → (c.step τ (.appendLast i j b)).1 ≠ .ok obs) ∧
    (∀ b obs, v.entries ≠ [] → (c.step τ (.removeFirst i b)).1 ≠ .ok obs) ∧
    (∀ b obs, v.entries ≠ [] → (c.step τ (.removeLast i b)).1 ≠ .ok obs) ∧
    (c.step τ (.inverse i)).1 = .error .attributeError := by
  obtain ⟨r, o, h1, h2, rfl⟩ := seq_eq_some hv
  have hok := hc.ok
  have ha' : o.isArray = true := ha
  have key : ∀ (m : PyM World Unit) (P : Except PyErr Unit → World → Prop),
      (Wp m P c.world) → (∀ res w, P res w → res ≠ .ok ()) → ∀ obs,
      (c.call m (fun _ _ => .unit) (fun _ => []) (fun _ => [])).1 ≠ .ok obs := by
    intro m P hm hP obs h
    unfold Wp at hm
    have := hP _ _ hm
    unfold Client.call at h
    rcases hmm : m c.world with ⟨e | a, w⟩
    · rw [hmm] at h; cases h
    · rw [hmm] at this; exact this rfl
  have app : ∀ (x : EntryObj) b upd res w, (∃ o', AppendPost τ c.world r o x b upd res w o') → res ≠ .ok () := by
    rintro x b upd res w ⟨o', hp⟩ rfl
    by_cases hf : FitsDim x.toVal o.dimension
    · exact ((hp.accept hf).2 ha').fail rfl
    · have := (hp.reject hf).1; cases this
  have rem : ∀ b upd res w, valsOf c.world.entries o.entries ≠ [] →
      (∃ o', RemovePost τ c.world r o b upd res w o') → res ≠ .ok () := by
    rintro b upd res w hne ⟨o', hp⟩ rfl
    exact ((hp.some fun h => hne (by rw [h]; rfl)).2 ha').fail rfl
  refine ⟨fun j b obs hj => ?_, fun j b obs hj => ?_, fun b obs hne => ?_, fun b obs hne => ?_, ?_⟩
  · have hx := List.getElem?_eq_getElem (hok.entries _ (List.getElem_mem hj))
    simp only [Client.step, Client.with_, h1, List.getElem?_eq_getElem hj]
    exact key _ _ (appendFirst_wp hok.wf h2 hx b) (app _ _ _) obs
  · have hx := List.getElem?_eq_getElem (hok.entries _ (List.getElem_mem hj))
    simp only [Client.step, Client.with_, h1, List.getElem?_eq_getElem hj]
    exact key _ _ (appendLast_wp hok.wf h2 hx b) (app _ _ _) obs
  · simp only [Client.step, Client.with_, h1]
    exact key _ _ (removeFirst_wp hok.wf h2 b) (fun res w => rem b _ res w hne) obs
  · simp only [Client.step, Client.with_, h1]
    exact key _ _ (removeLast_wp hok.wf h2 b) (fun res w => rem b _ res w hne) obs
  · have hw := inverse_wp hok.wf h2
    unfold Wp at hw
    have h3 := hw.array ha'
    simp only [Client.step, Client.with_, h1]
    unfold Client.call
    rcases hm : Seq.inverse τ r c.world with ⟨e | t, w⟩
    · rw [hm] at h3; simp only at h3; cases h3; rfl
    · rw [hm] at h3; cases h3

/-- On qubits in exact arithmetic the exception is AttributeError in all five cases, but the undo state is saved
before it is raised. -/
theorem C22_attribute_error {c : Client} (hc : c.Reachable) {i j : ℕ} {v : SeqView} {e : EntryVal}
    (hv : c.seq i = some v) (ha : v.isArray = true) (he : c.entry j = some e) (hf : Plain.fits v.dimension e)
    (hne : v.entries ≠ []) (b : Bool) :
    ∀ op ∈ [Op.appendFirst i j b, .appendLast i j b, .removeFirst i b, .removeLast i b],
      (c.step 0 op).1 = .error .attributeError ∧
      (c.step 0 op).2.seq i = some { v with undo := if b then some v.entries else v.undo } := by
  obtain ⟨p, h1, h2, h3, -, h5⟩ := reachable_refines hc
  have hpi : p.seqs[i]? = some v := (h1 i).symm.trans hv
  have hpj : p.entries[j]? = some e := (h2 j).symm.trans he
  have hlt := (List.getElem?_eq_some_iff.mp hpi).1
  have key : ∀ (op : Op) (new : List EntryVal), op.OnQubits → op.NoSharedInverse c →
      p.step op = p.change i v b new → (c.step 0 op).1 = .error .attributeError ∧
      (c.step 0 op).2.seq i = some { v with undo := if b then some v.entries else v.undo } := by
    intro op new ho ho' hstep
    obtain ⟨h6, h7, -⟩ := h5 op ho ho'
    rw [hstep] at h6 h7
    unfold Plain.change at h6 h7
    simp only [ha, if_true] at h6 h7
    constructor
    · rcases hres : (c.step 0 op).1 with e | obs
      · rw [hres] at h6; simp only [SameResult] at h6; rw [h6]
      · rw [hres] at h6; exact absurd h6 (by simp [SameResult])
    · rw [h7, List.getElem?_set_self hlt, ha]
  intro op hop
  simp only [List.mem_cons, List.not_mem_nil, or_false] at hop
  rcases hop with rfl | rfl | rfl | rfl
  · exact key _ _ trivial trivial (by simp only [Plain.step, Plain.with_, hpi, hpj]; rw [if_pos hf])
  · exact key _ _ trivial trivial (by simp only [Plain.step, Plain.with_, hpi, hpj]; rw [if_pos hf])
  · exact key _ _ trivial trivial (by simp only [Plain.step, Plain.with_, hpi]; rw [if_neg hne])
  · exact key _ _ trivial trivial (by simp only [Plain.step, Plain.with_, hpi]; rw [if_neg hne])

/-- Length works on array-backed sequences too (and `product()` and `combine()` do by C15 and C19, which do not
ask for a list). -/
theorem C22_length {τ : Arith} {c : Client} (hc : c.ReachableAny τ) {i : ℕ} {v : SeqView} (hv : c.seq i = some v) :
    c.step τ (.getLength i) = (.ok (.length v.entries.length), c) := by
  obtain ⟨r, o, h1, h2, rfl⟩ := seq_eq_some hv
  have hlen : Seq.getLength r c.world = (.ok o.entries.length, c.world) := by
    unfold Seq.getLength
    rw [PyM.bind_of_ok (getSeq_some h2)]; rfl
  simp only [Client.step, Client.with_, h1]
  rw [(Client.call_eq).1 _ _ hlen]
  have : (valsOf c.world.entries o.entries).length = o.entries.length := valsOf_length (hc.ok.wf.seq h2).entries.lt
  simp [viewOf, this]

end Stoq
