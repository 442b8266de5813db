import Verif.Proofs.Shape

/-! What calls do to the remembered entries of a sequence, for every matrix arithmetic. -/

namespace Stoq

open Matrix

/-! ## From reachable states to the invariants -/

theorem Client.Reachable.rel {c : Client} (h : c.Reachable) : ∃ p, Rel c p := by
  obtain ⟨rng, ops, h1, h2, rfl⟩ := h
  exact ⟨_, (run_refines (rel_start rng) ops h1 h2).2⟩

theorem Client.ReachableAny.ok {τ : Arith} {c : Client} (h : c.ReachableAny τ) : c.Ok τ := by
  obtain ⟨rng, ops, rfl⟩ := h
  exact run_ok (ok_start τ rng) ops

theorem Client.Reachable.any {c : Client} (h : c.Reachable) : c.ReachableAny 0 := by
  obtain ⟨rng, ops, -, -, rfl⟩ := h
  exact ⟨rng, ops, rfl⟩

theorem seq_of_forall₂ {c : Client} {vs : List SeqView}
    (h : List.Forall₂ (fun r v => c.world.view r = some v) c.seqs vs) (i : ℕ) : c.seq i = vs[i]? := by
  unfold Client.seq
  rcases forall₂_getElem? h i with ⟨h1, h2⟩ | ⟨r, v, h1, h2, h3⟩
  · rw [h1, h2]; rfl
  · rw [h1, h2]; exact h3

theorem entry_of_forall₂ {c : Client} {vs : List EntryVal}
    (h : List.Forall₂ (EntryIs c.world.entries) c.entries vs) (i : ℕ) : c.entry i = vs[i]? := by
  unfold Client.entry
  rcases forall₂_getElem? h i with ⟨h1, h2⟩ | ⟨r, v, h1, h2, o, h3, h4⟩
  · rw [h1, h2]; rfl
  · rw [h1, h2]; simp [h3, h4]

theorem seq_eq_some {c : Client} {i : ℕ} {v : SeqView} (h : c.seq i = some v) :
    ∃ r o, c.seqs[i]? = some r ∧ c.world.seqs[r]? = some o ∧ v = viewOf c.world.entries o := by
  unfold Client.seq at h
  obtain ⟨r, h1, h2⟩ := Option.bind_eq_some_iff.mp h
  obtain ⟨o, h3, h4⟩ := view_eq_some.mp h2
  exact ⟨r, o, h1, h3, h4⟩

theorem entry_eq_some {c : Client} {i : ℕ} {v : EntryVal} (h : c.entry i = some v) :
    ∃ r o, c.entries[i]? = some r ∧ c.world.entries[r]? = some o ∧ v = o.toVal := by
  unfold Client.entry at h
  obtain ⟨r, h1, h2⟩ := Option.bind_eq_some_iff.mp h
  obtain ⟨o, h3, h4⟩ := Option.map_eq_some_iff.mp h2
  exact ⟨r, o, h1, h3, h4.symm⟩

/-! ## Undo lists -/

/-- What a change does to the undo list and to everything else about the sequence except its entries. -/
theorem changed_view {τ : Arith} {c : Client} {s r : ℕ} {o : SeqObj} (hs : c.seqs[s]? = some r)
    (ho : c.world.seqs[r]? = some o) {b : Bool} {upd : List ℕ} {w' : World} {o' : SeqObj}
    {res : Except PyErr Unit} (h : ModPost τ c.world r o b upd res w' o') (c' : Client)
    (hc' : c' = { c with world := w' }) :
    ∃ v', c'.seq s = some v' ∧ v'.dimension = o.dimension ∧ v'.isArray = o.isArray ∧
      v'.undo = if b then some (valsOf c.world.entries o.entries) else (viewOf c.world.entries o).undo := by
  subst hc'
  have st := h.step
  refine ⟨viewOf w'.entries o', ?_, st.dim, st.arr, ?_⟩
  · unfold Client.seq
    simp only [hs, Option.bind_some]
    exact view_eq_some.mpr ⟨o', st.get ho, rfl⟩
  · cases harr : o.isArray with
    | true => exact (h.2 harr).undo
    | false => exact (h.1 harr).undo

/-- A call to a mutator of sequence `s`, after its arguments have been looked up. -/
theorem call_unit_state {c : Client} {m : PyM World Unit} {obs : Unit → World → Client.Obs} :
    (c.call m obs (fun _ => []) (fun _ => [])).2 = { c with world := (m c.world).2 } := by
  unfold Client.call
  rcases m c.world with ⟨_ | _, w⟩ <;> simp

theorem call_unit_ok {c : Client} {m : PyM World Unit} {obs : Unit → World → Client.Obs} {x : Client.Obs}
    (h : (c.call m obs (fun _ => []) (fun _ => [])).1 = .ok x) : (m c.world).1 = .ok () := by
  unfold Client.call at h
  rcases hm : m c.world with ⟨_ | _, w⟩ <;> rw [hm] at h
  cases h

/-- Saving calls that succeed and change something remember the entries before the call. -/
theorem saves_undo {τ : Arith} {c : Client} (hok : c.Ok τ) {i : ℕ} {op : Op} (hop : op.Saves i) {v : SeqView}
    (hv : c.seq i = some v) {obs : Client.Obs} (hres : (c.step τ op).1 = .ok obs)
    (hne : ∀ b, op = .removeFirst i b ∨ op = .removeLast i b → v.entries ≠ []) :
    ∃ v', (c.step τ op).2.seq i = some v' ∧ v'.dimension = v.dimension ∧ v'.isArray = v.isArray ∧
      v'.undo = some v.entries := by
  obtain ⟨r, o, h1, h2, rfl⟩ := seq_eq_some hv
  have entAt : ∀ {s r : ℕ}, c.entries[s]? = some r → ∃ o, c.world.entries[r]? = some o := fun hs =>
    ⟨_, List.getElem?_eq_getElem (hok.entries _ (List.mem_of_getElem? hs))⟩
  have happ : ∀ (e : ℕ) (m : ℕ → ℕ → PyM World Unit) (upd : List ℕ → ℕ → List ℕ),
      (∀ r' x, c.world.entries[r']? = some x →
        Wp (m r r') (fun res w' => ∃ o', AppendPost τ c.world r o x true (upd o.entries r') res w' o') c.world) →
      ∀ (y : Except PyErr Client.Obs × Client), y = (Client.with_ (c.seqs[i]?) c fun s =>
        Client.with_ (c.entries[e]?) c fun e => c.call (m s e) (fun _ _ => .unit) (fun _ => []) (fun _ => [])) →
      y.1 = .ok obs → ∃ v', y.2.seq i = some v' ∧ v'.dimension = o.dimension ∧ v'.isArray = o.isArray ∧
        v'.undo = some (valsOf c.world.entries o.entries) := by
    rintro e m upd hm y rfl hy
    rw [h1] at hy ⊢
    simp only [Client.with_] at hy ⊢
    rcases he : c.entries[e]? with _ | r'
    · rw [he] at hy; cases hy
    · rw [he] at hy
      simp only at hy ⊢
      obtain ⟨x, hx⟩ := entAt he
      have hw := hm r' x hx
      unfold Wp at hw
      obtain ⟨o', hp⟩ := hw
      by_cases hf : FitsDim x.toVal o.dimension
      · obtain ⟨v', h3, h4, h5, h6⟩ := changed_view h1 h2 (hp.accept hf) _ call_unit_state
        exact ⟨v', h3, h4, h5, by simpa using h6⟩
      · have := (hp.reject hf).1
        rw [call_unit_ok hy] at this; cases this
  have hrem : ∀ (m : ℕ → PyM World Unit) (upd : List ℕ → List ℕ),
      (Wp (m r) (fun res w' => ∃ o', RemovePost τ c.world r o true (upd o.entries) res w' o') c.world) →
      (viewOf c.world.entries o).entries ≠ [] →
      ∀ (y : Except PyErr Client.Obs × Client), y = (Client.with_ (c.seqs[i]?) c fun s =>
        c.call (m s) (fun _ _ => .unit) (fun _ => []) (fun _ => [])) →
      y.1 = .ok obs → ∃ v', y.2.seq i = some v' ∧ v'.dimension = o.dimension ∧ v'.isArray = o.isArray ∧
        v'.undo = some (valsOf c.world.entries o.entries) := by
    rintro m upd hm hne y rfl hy
    rw [h1] at hy ⊢
    simp only [Client.with_] at hy ⊢
    unfold Wp at hm
    obtain ⟨o', hp⟩ := hm
    have hne' : o.entries ≠ [] := by
      rintro h; apply hne; show valsOf _ o.entries = []; rw [h]; rfl
    obtain ⟨v', h3, h4, h5, h6⟩ := changed_view h1 h2 (hp.some hne') _ call_unit_state
    exact ⟨v', h3, h4, h5, by simpa using h6⟩
  cases op with
  | appendFirst s e b =>
    obtain ⟨rfl, rfl⟩ := hop
    exact happ e (fun s e => Seq.appendFirst τ s e true) (fun rs r => r :: rs)
      (fun r' x hx => appendFirst_wp hok.wf h2 hx true) _ rfl hres
  | appendLast s e b =>
    obtain ⟨rfl, rfl⟩ := hop
    exact happ e (fun s e => Seq.appendLast τ s e true) (fun rs r => rs ++ [r])
      (fun r' x hx => appendLast_wp hok.wf h2 hx true) _ rfl hres
  | removeFirst s b =>
    obtain ⟨rfl, rfl⟩ := hop
    exact hrem (fun s => Seq.removeFirst τ s true) List.tail (removeFirst_wp hok.wf h2 true)
      (hne true (.inl rfl)) _ rfl hres
  | removeLast s b =>
    obtain ⟨rfl, rfl⟩ := hop
    exact hrem (fun s => Seq.removeLast τ s true) List.dropLast (removeLast_wp hok.wf h2 true)
      (hne true (.inr rfl)) _ rfl hres
  | _ => exact absurd hop (by simp [Op.Saves])

/-- Other calls keep the remembered entries, whether they succeed or not. -/
theorem keeps_undo {τ : Arith} {c : Client} (hok : c.Ok τ) {i : ℕ} {op : Op} (hop : op.KeepsUndo i) {v : SeqView}
    (hv : c.seq i = some v) : ∃ v', (c.step τ op).2.seq i = some v' ∧ v'.dimension = v.dimension ∧
      v'.isArray = v.isArray ∧ v'.undo = v.undo := by
  by_cases hch : op.changes = some i
  swap
  · exact ⟨v, (step_frame hok op).seq hch hv, rfl, rfl, rfl⟩
  obtain ⟨r, o, h1, h2, rfl⟩ := seq_eq_some hv
  have entAt : ∀ {s r : ℕ}, c.entries[s]? = some r → ∃ o, c.world.entries[r]? = some o := fun hs =>
    ⟨_, List.getElem?_eq_getElem (hok.entries _ (List.mem_of_getElem? hs))⟩
  have happ : ∀ (e : ℕ) (m : ℕ → ℕ → PyM World Unit) (upd : List ℕ → ℕ → List ℕ),
      (∀ r' x, c.world.entries[r']? = some x →
        Wp (m r r') (fun res w' => ∃ o', AppendPost τ c.world r o x false (upd o.entries r') res w' o') c.world) →
      ∀ (y : Except PyErr Client.Obs × Client), y = (Client.with_ (c.seqs[i]?) c fun s =>
        Client.with_ (c.entries[e]?) c fun e => c.call (m s e) (fun _ _ => .unit) (fun _ => []) (fun _ => [])) →
      ∃ v', y.2.seq i = some v' ∧ v'.dimension = o.dimension ∧ v'.isArray = o.isArray ∧
        v'.undo = (viewOf c.world.entries o).undo := by
    rintro e m upd hm y rfl
    rw [h1]
    simp only [Client.with_]
    rcases he : c.entries[e]? with _ | r'
    · exact ⟨_, hv, rfl, rfl, rfl⟩
    · simp only
      obtain ⟨x, hx⟩ := entAt he
      have hw := hm r' x hx
      unfold Wp at hw
      obtain ⟨o', hp⟩ := hw
      by_cases hf : FitsDim x.toVal o.dimension
      · obtain ⟨v', h3, h4, h5, h6⟩ := changed_view h1 h2 (hp.accept hf) _ call_unit_state
        exact ⟨v', h3, h4, h5, by simpa using h6⟩
      · have := (hp.reject hf).2.1
        rw [call_unit_state, this]
        exact ⟨_, hv, rfl, rfl, rfl⟩
  have hrem : ∀ (m : ℕ → PyM World Unit) (upd : List ℕ → List ℕ),
      (Wp (m r) (fun res w' => ∃ o', RemovePost τ c.world r o false (upd o.entries) res w' o') c.world) →
      ∀ (y : Except PyErr Client.Obs × Client), y = (Client.with_ (c.seqs[i]?) c fun s =>
        c.call (m s) (fun _ _ => .unit) (fun _ => []) (fun _ => [])) →
      ∃ v', y.2.seq i = some v' ∧ v'.dimension = o.dimension ∧ v'.isArray = o.isArray ∧
        v'.undo = (viewOf c.world.entries o).undo := by
    rintro m upd hm y rfl
    rw [h1]
    simp only [Client.with_]
    unfold Wp at hm
    obtain ⟨o', hp⟩ := hm
    by_cases hne' : o.entries = []
    · rw [call_unit_state, (hp.empty hne').2.1]
      exact ⟨_, hv, rfl, rfl, rfl⟩
    · obtain ⟨v', h3, h4, h5, h6⟩ := changed_view h1 h2 (hp.some hne') _ call_unit_state
      exact ⟨v', h3, h4, h5, by simpa using h6⟩
  cases op with
  | appendFirst s e b =>
    simp only [Op.changes, Option.some.injEq] at hch; subst hch
    have hb : b = false := hop rfl
    subst hb
    exact happ e (fun s e => Seq.appendFirst τ s e false) (fun rs r => r :: rs)
      (fun r' x hx => appendFirst_wp hok.wf h2 hx false) _ rfl
  | appendLast s e b =>
    simp only [Op.changes, Option.some.injEq] at hch; subst hch
    have hb : b = false := hop rfl
    subst hb
    exact happ e (fun s e => Seq.appendLast τ s e false) (fun rs r => rs ++ [r])
      (fun r' x hx => appendLast_wp hok.wf h2 hx false) _ rfl
  | removeFirst s b =>
    simp only [Op.changes, Option.some.injEq] at hch; subst hch
    have hb : b = false := hop rfl
    subst hb
    exact hrem (fun s => Seq.removeFirst τ s false) List.tail (removeFirst_wp hok.wf h2 false) _ rfl
  | removeLast s b =>
    simp only [Op.changes, Option.some.injEq] at hch; subst hch
    have hb : b = false := hop rfl
    subst hb
    exact hrem (fun s => Seq.removeLast τ s false) List.dropLast (removeLast_wp hok.wf h2 false) _ rfl
  | undo s =>
    simp only [Op.changes, Option.some.injEq] at hch; subst hch
    exact absurd rfl hop
  | _ => simp [Op.changes] at hch

theorem keeps_undo_run {τ : Arith} {c : Client} (hok : c.Ok τ) {i : ℕ} (ops : List Op)
    (hops : ∀ op ∈ ops, op.KeepsUndo i) {v : SeqView} (hv : c.seq i = some v) :
    ∃ v', (c.run τ ops).2.seq i = some v' ∧ v'.dimension = v.dimension ∧
      v'.isArray = v.isArray ∧ v'.undo = v.undo := by
  induction ops generalizing c v with
  | nil => exact ⟨v, hv, rfl, rfl, rfl⟩
  | cons op ops ih =>
    obtain ⟨v1, h1, h2, h3, h4⟩ := keeps_undo hok (hops op (by simp)) hv
    obtain ⟨v2, h5, h6, h7, h8⟩ := ih (step_frame hok op).ok (fun x hx => hops x (by simp [hx])) h1
    exact ⟨v2, h5, h6.trans h2, h7.trans h3, h8.trans h4⟩

theorem undo_step {τ : Arith} {c : Client} (hok : c.Ok τ) {i : ℕ} {v : SeqView} (hv : c.seq i = some v) :
    (v.undo = none → c.step τ (.undo i) = (.error .assertion, c)) ∧
    (∀ old, v.undo = some old → (c.step τ (.undo i)).1 = .ok .unit ∧
      (c.step τ (.undo i)).2.seq i = some { v with entries := old, undo := none }) := by
  obtain ⟨r, o, h1, h2, rfl⟩ := seq_eq_some hv
  have hw := undo_wp hok.wf h2
  unfold Wp at hw
  obtain ⟨o', st, h3, h4, -⟩ := hw
  have hstep : c.step τ (.undo i) = c.call (Seq.undo r) (fun _ _ => .unit) (fun _ => []) (fun _ => []) := by
    simp only [Client.step, Client.with_, h1]
  rw [hstep]
  constructor
  · intro hn
    have hn' : o.previousEntries = none := by
      simpa [viewOf] using hn
    obtain ⟨h5, h6, -⟩ := h3 hn'
    unfold Client.call
    rcases hm : Seq.undo r c.world with ⟨e | a, w⟩
    · rw [hm] at h5 h6; simp only at h5 h6; cases h5; rw [h6]
    · rw [hm] at h5; cases h5
  · intro old hold
    obtain ⟨ps, hps, hps'⟩ := Option.map_eq_some_iff.mp (show o.previousEntries.map (valsOf c.world.entries) = some old from hold)
    obtain ⟨h5, h6, h7⟩ := h4 ps hps
    constructor
    · unfold Client.call
      rcases hm : Seq.undo r c.world with ⟨e | a, w⟩
      · rw [hm] at h5; cases h5
      · rfl
    · rw [call_unit_state]
      unfold Client.seq
      simp only [h1, Option.bind_some]
      refine view_eq_some.mpr ⟨o', st.get h2, ?_⟩
      rw [h7, ← hps']
      simp [viewOf, h6]

/-! ## More reachable states -/

theorem run_append {τ : Arith} (c : Client) (ops ops' : List Op) :
    (c.run τ (ops ++ ops')).2 = ((c.run τ ops).2.run τ ops').2 := by
  induction ops generalizing c with
  | nil => rfl
  | cons op ops ih => exact ih _

theorem noShared_append {τ : Arith} (c : Client) (ops ops' : List Op) :
    c.NoSharedInverse τ (ops ++ ops') ↔ c.NoSharedInverse τ ops ∧ (c.run τ ops).2.NoSharedInverse τ ops' := by
  induction ops generalizing c with
  | nil => simp [Client.NoSharedInverse, Client.run]
  | cons op ops ih =>
    simp only [List.cons_append, Client.NoSharedInverse, Client.run, ih, and_assoc]

theorem Client.Reachable.step {c : Client} (h : c.Reachable) {op : Op} (hq : op.OnQubits)
    (hi : op.NoSharedInverse c) : (c.step 0 op).2.Reachable := by
  obtain ⟨rng, ops, h1, h2, rfl⟩ := h
  refine ⟨rng, ops ++ [op], ?_, ?_, ?_⟩
  · intro x hx
    rcases List.mem_append.mp hx with hx | hx
    · exact h1 x hx
    · rw [List.mem_singleton] at hx; subst hx; exact hq
  · exact (noShared_append _ _ _).mpr ⟨h2, hi, trivial⟩
  · rw [run_append]; rfl

theorem Client.ReachableAny.step {τ : Arith} {c : Client} (h : c.ReachableAny τ) (op : Op) :
    (c.step τ op).2.ReachableAny τ := by
  obtain ⟨rng, ops, rfl⟩ := h
  exact ⟨rng, ops ++ [op], by rw [run_append]; rfl⟩

theorem invN_one {τ : Arith} {e e' : EntryVal} (h : InvN τ 1 e e') :
    e.unitary.inverse τ = .ok e'.unitary ∧ e'.applyTo = e.applyTo := by
  obtain ⟨v1, h1, rfl⟩ := h
  unfold invVal at h1
  obtain ⟨u, hu, h2⟩ := bind_eq_ok.mp h1
  cases h2
  exact ⟨hu, rfl⟩

end Stoq
