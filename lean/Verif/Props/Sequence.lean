import Verif.Proofs.Undo
import Verif.Props.Unitary
import Verif.Props.Entry

/-!
# Properties C12, C14 - C22: sequences

The subject is a client (Verif.Spec.History) that calls the public API of entries and sequences in any order,
holding on to every object it obtains; exceptions do not stop it.  `Client.Reachable` are the states reached in
exact arithmetic by programs on qubits that do not call `inverse()` on a sequence containing an entry object
twice (C18 says what happens then).  `Client.ReachableAny τ` are the states reached by any program at all with
matrix arithmetic `τ`.
-/

namespace Stoq

open Matrix

/-! ## C12: the cache of full unitaries is invisible -/

/-- For every matrix arithmetic, after every program: `get_full_unitary(D)` on an entry returns (or raises) what
the computation without cache does on the content `v` the entry had at any earlier time, in particular when it
was created. -/
theorem C12_cache_invisible {τ : Arith} {c : Client} (hc : c.ReachableAny τ) {i : ℕ} {v : EntryVal}
    (hv : c.entry i = some v) (ops : List Op) (D : ℕ) :
    ((c.run τ ops).2.step τ (.fullUnitary i D)).1 = (v.fullUnitary τ D).map .unitary := by
  have hok := run_ok hc.ok ops
  obtain ⟨r, x, h1, h2, rfl⟩ := entry_eq_some (run_entry hc.ok ops hv)
  generalize (c.run τ ops).2 = c' at *
  have hw := getFullUnitary_wp hok.wf.entries h2 D
  simp only [Client.step, Client.with_, h1, Client.call]
  unfold Wp at hw
  rcases hm : Entry.getFullUnitary τ r D c'.world with ⟨e | u, w⟩ <;> rw [hm] at hw <;> rw [← hw.1] <;> rfl

/-- In exact arithmetic on qubits: `get_full_unitary` of every entry the client holds is the embedded operator,
in every reachable state. -/
theorem C12_full_unitary_is_embedding {c : Client} (hc : c.Reachable) {i n : ℕ} {v : EntryVal}
    (hv : c.entry i = some v) (hf : ∀ q ∈ v.applyTo, q < n) :
    ∃ u, (c.step 0 (.fullUnitary i (2 ^ n))).1 = .ok (.unitary u) ∧ u.Holds (v.op n) := by
  obtain ⟨p, hp⟩ := hc.rel
  obtain ⟨r, x, h1, h2, rfl⟩ := entry_eq_some hv
  obtain ⟨u, h3, h4, h5⟩ := fullUnitary_op (hp.wf.entries x (List.mem_of_getElem? h2)).wf hf
    (hp.exact x (List.mem_of_getElem? h2))
  refine ⟨u, ?_, h4.rows, h4.cols, h5⟩
  have := C12_cache_invisible hc.any hv [] (2 ^ n)
  simp only [Client.run] at this
  rw [this, h3]; rfl

/-! ## C14: sequences are double-ended lists -/

/-- Every program gets the results (values and exceptions) of the same program on plain lists of gates, and
every sequence and entry ends up with the specified content. -/
theorem C14_sequences_are_lists (rng : Rng) (ops : List Op) (hq : ∀ op ∈ ops, op.OnQubits)
    (hi : (Client.start rng).NoSharedInverse 0 ops) :
    List.Forall₂ SameResult ((Client.start rng).run 0 ops).1 (Plain.run ⟨[], []⟩ ops).1 ∧
    (∀ i, ((Client.start rng).run 0 ops).2.seq i = (Plain.run ⟨[], []⟩ ops).2.seqs[i]?) ∧
    (∀ i, ((Client.start rng).run 0 ops).2.entry i = (Plain.run ⟨[], []⟩ ops).2.entries[i]?) := by
  obtain ⟨h1, h2⟩ := run_refines (rel_start rng) ops hq hi
  exact ⟨h1, seq_of_forall₂ h2.seqs, entry_of_forall₂ h2.ents⟩

/-- The same for every matrix arithmetic, every dimension and gates that are only approximately unitary: as long
as no call raises (and `inverse()` is not used), every sequence and entry has the content it has on plain
lists. -/
theorem C14_any_threshold (τ : Arith) (rng : Rng) (ops : List Op) (hinv : ∀ s, Op.inverse s ∉ ops)
    (hok : ∀ x ∈ ((Client.start rng).run τ ops).1, ∃ obs, x = .ok obs) :
    (∀ i, ((Client.start rng).run τ ops).2.seq i = (Plain.run ⟨[], []⟩ ops).2.seqs[i]?) ∧
    (∀ i, ((Client.start rng).run τ ops).2.entry i = (Plain.run ⟨[], []⟩ ops).2.entries[i]?) := by
  have h := run_shape (prel_start τ rng) ops hinv hok
  exact ⟨seq_of_forall₂ h.seqs, entry_of_forall₂ h.ents⟩

/-- One successful call from any state whatsoever. -/
theorem C14_successful_call {τ : Arith} {c : Client} (hc : c.ReachableAny τ) (op : Op) (hinv : ∀ s, op ≠ .inverse s)
    {obs : Client.Obs} (hok : (c.step τ op).1 = .ok obs) (p : Plain) (h1 : ∀ i, c.seq i = p.seqs[i]?)
    (h2 : ∀ i, c.entry i = p.entries[i]?) :
    (∃ obs', (p.step op).1 = .ok obs') ∧ (∀ i, (c.step τ op).2.seq i = (p.step op).2.seqs[i]?) ∧
      (∀ i, (c.step τ op).2.entry i = (p.step op).2.entries[i]?) := by
  have hcok := hc.ok
  have hrel : PRel τ c p := by
    refine ⟨hcok, ?_, ?_⟩
    · rw [List.forall₂_iff_get]
      have hlen : c.entries.length = p.entries.length := by
        by_contra hne
        rcases lt_or_gt_of_ne hne with hlt | hlt
        · have := h2 c.entries.length
          unfold Client.entry at this
          rw [List.getElem?_eq_none (le_refl _), List.getElem?_eq_getElem hlt] at this
          cases this
        · have := h2 p.entries.length
          unfold Client.entry at this
          rw [List.getElem?_eq_getElem hlt, List.getElem?_eq_none (le_refl p.entries.length)] at this
          have hl := hcok.entries _ (List.getElem_mem hlt)
          simp [List.getElem?_eq_getElem hl] at this
      refine ⟨hlen, fun i hi hi' => ?_⟩
      have := h2 i
      unfold Client.entry at this
      rw [List.getElem?_eq_getElem hi, List.getElem?_eq_getElem hi'] at this
      obtain ⟨o, h3, h4⟩ := Option.map_eq_some_iff.mp this
      exact ⟨o, h3, h4⟩
    · rw [List.forall₂_iff_get]
      have hlen : c.seqs.length = p.seqs.length := by
        by_contra hne
        rcases lt_or_gt_of_ne hne with hlt | hlt
        · have := h1 c.seqs.length
          unfold Client.seq at this
          rw [List.getElem?_eq_none (le_refl _), List.getElem?_eq_getElem hlt] at this
          cases this
        · have := h1 p.seqs.length
          unfold Client.seq at this
          rw [List.getElem?_eq_getElem hlt, List.getElem?_eq_none (le_refl p.seqs.length)] at this
          have hl := hcok.seqs _ (List.getElem_mem hlt)
          simp [World.view, List.getElem?_eq_getElem hl] at this
      refine ⟨hlen, fun i hi hi' => ?_⟩
      have := h1 i
      unfold Client.seq at this
      rw [List.getElem?_eq_getElem hi, List.getElem?_eq_getElem hi'] at this
      exact this
  obtain ⟨h3, h4⟩ := step_shape hrel hinv obs hok
  exact ⟨h3, seq_of_forall₂ h4.seqs, entry_of_forall₂ h4.ents⟩

/-! ## C15: product() -/

/-- In every reachable state, `product()` of every sequence is the product of its current entries, the first one
rightmost; calling it does not change what any sequence holds. -/
theorem C15_product {c : Client} (hc : c.Reachable) {i : ℕ} {v : SeqView} (hv : c.seq i = some v) :
    ∃ n u, v.dimension = 2 ^ n ∧ (c.step 0 (.product i)).1 = .ok (.unitary u) ∧
      u.Holds (circuit n v.entries) ∧ ∀ j, (c.step 0 (.product i)).2.seq j = c.seq j := by
  obtain ⟨p, hp⟩ := hc.rel
  have hpv : p.seqs[i]? = some v := by rw [← seq_of_forall₂ hp.seqs]; exact hv
  obtain ⟨n, hn⟩ := hp.pow v (List.mem_of_getElem? hpv)
  obtain ⟨h1, h2⟩ := step_refines hp (op := .product i) trivial trivial
  have hplain : p.step (.product i) = (.ok (.op (Nat.log 2 v.dimension) (circuit (Nat.log 2 v.dimension) v.entries)), p) := by
    simp only [Plain.step, Plain.with_, hpv]
  rw [hplain] at h1 h2
  rcases hres : (c.step 0 (.product i)).1 with e | obs
  · rw [hres] at h1; exact absurd h1 (by simp [SameResult])
  · rw [hres] at h1
    cases obs with
    | unitary u =>
      refine ⟨n, u, hn, rfl, ?_, fun j => ?_⟩
      · simp only [SameResult, SameObs] at h1
        rw [hn, log2_pow] at h1
        exact h1
      · rw [seq_of_forall₂ h2.seqs, seq_of_forall₂ hp.seqs]
    | _ => exact absurd h1 (by simp [SameResult, SameObs])

/-- The product of the entries as a plain formula: the product over the reversed list. -/
theorem C15_circuit_is_product (n : ℕ) (es : List EntryVal) :
    circuit n es = (es.reverse.map fun e => embed n e.applyTo (e.unitary.matrix.toMatrix _)).prod := by
  induction es with
  | nil => simp [circuit]
  | cons e es ih => rw [circuit, ih]; simp [EntryVal.op]

/-! ## C16: undo() -/

/-- For every matrix arithmetic: after a saving change of sequence `i` (a removal only counts if there is
something to remove) and any further calls that do not save or undo `i`, successful or not, `undo()` restores the
entries from before the saving change, and a second `undo()` raises AssertionError and changes nothing. -/
theorem C16_undo_restores {τ : Arith} {c : Client} (hc : c.ReachableAny τ) {i : ℕ} {v : SeqView}
    (hv : c.seq i = some v) {op : Op} (hop : op.Saves i) {obs : Client.Obs} (hres : (c.step τ op).1 = .ok obs)
    (hne : ∀ b, op = .removeFirst i b ∨ op = .removeLast i b → v.entries ≠ []) (mid : List Op)
    (hmid : ∀ o ∈ mid, o.KeepsUndo i) (c1 c2 : Client) (hc1 : c1 = ((c.step τ op).2.run τ mid).2)
    (hc2 : c2 = (c1.step τ (.undo i)).2) :
    (c1.step τ (.undo i)).1 = .ok .unit ∧ c2.seq i = some ⟨v.dimension, v.isArray, v.entries, none⟩ ∧
      c2.step τ (.undo i) = (.error .assertion, c2) := by
  have hok := (step_frame hc.ok op).ok
  obtain ⟨v1, h1, h2, h3, h4⟩ := saves_undo hc.ok hop hv hres hne
  obtain ⟨v2, h5, h6, h7, h8⟩ := keeps_undo_run hok mid hmid h1
  have hok1 : c1.Ok τ := hc1 ▸ run_ok hok mid
  rw [← hc1] at h5
  obtain ⟨h9, h10⟩ := (undo_step hok1 h5).2 v.entries (h8.trans h4)
  have hok2 : c2.Ok τ := hc2 ▸ (step_frame hok1 _).ok
  rw [← hc2] at h10
  refine ⟨h9, ?_, (undo_step hok2 h10).1 rfl⟩
  rw [h10, ← h2, ← h6, ← h3, ← h7]

/-- `undo()` with nothing saved raises AssertionError and changes nothing. -/
theorem C16_undo_nothing {τ : Arith} {c : Client} (hc : c.ReachableAny τ) {i : ℕ} {v : SeqView}
    (hv : c.seq i = some v) (hn : v.undo = none) : c.step τ (.undo i) = (.error .assertion, c) :=
  (undo_step hc.ok hv).1 hn

/-- Removing from an empty sequence does nothing and saves nothing. -/
theorem C16_remove_empty {τ : Arith} {c : Client} (hc : c.ReachableAny τ) {i : ℕ} {v : SeqView}
    (hv : c.seq i = some v) (he : v.entries = []) (b : Bool) :
    c.step τ (.removeFirst i b) = (.ok .unit, c) ∧ c.step τ (.removeLast i b) = (.ok .unit, c) := by
  obtain ⟨r, o, h1, h2, rfl⟩ := seq_eq_some hv
  have hok := hc.ok
  have hne : o.entries = [] := by
    have : valsOf c.world.entries o.entries = [] := he
    rw [← List.length_eq_zero_iff, valsOf_length (hok.wf.seq h2).entries.lt, List.length_eq_zero_iff] at this
    exact this
  have key : ∀ (m : PyM World Unit) (upd : List ℕ),
      (Wp m (fun res w' => ∃ o', RemovePost τ c.world r o b upd res w' o') c.world) →
      c.call m (fun _ _ => .unit) (fun _ => []) (fun _ => []) = (.ok .unit, c) := by
    intro m upd hm
    unfold Wp at hm
    obtain ⟨o', hp⟩ := hm
    obtain ⟨h3, h4, -⟩ := hp.empty hne
    unfold Client.call
    rcases hmm : m c.world with ⟨e | a, w⟩
    · rw [hmm] at h3; cases h3
    · rw [hmm] at h4; simp only at h4; rw [h4]; simp
  constructor
  · simp only [Client.step, Client.with_, h1]
    exact key _ _ (removeFirst_wp hok.wf h2 b)
  · simp only [Client.step, Client.with_, h1]
    exact key _ _ (removeLast_wp hok.wf h2 b)

/-! ## C17: inverse() of a sequence without shared entry objects -/

/-- No entry object occurs twice in the sequence with handle `i`. -/
def Client.Unshared (c : Client) (i : ℕ) : Prop := (Op.inverse i).NoSharedInverse c

/-- `inverse()` returns a new sequence with the inverted entries in reverse order; its product, whether taken
from `product()` or recomputed from its entries, is the conjugate transpose of the original product. -/
theorem C17_inverse {c : Client} (hc : c.Reachable) {i : ℕ} {v : SeqView} (hv : c.seq i = some v)
    (hl : v.isArray = false) (hi : c.Unshared i) (c' : Client) (hc' : c' = (c.step 0 (.inverse i)).2) :
    (c.step 0 (.inverse i)).1 = .ok .handle ∧
    c'.seq c.seqs.length = some ⟨v.dimension, false, (v.entries.map EntryVal.dagger).reverse, none⟩ ∧
    ∃ n u, v.dimension = 2 ^ n ∧ circuit n ((v.entries.map EntryVal.dagger).reverse) = (circuit n v.entries)ᴴ ∧
      (c'.step 0 (.product c.seqs.length)).1 = .ok (.unitary u) ∧ u.Holds (circuit n v.entries)ᴴ := by
  obtain ⟨p, hp⟩ := hc.rel
  have hpv : p.seqs[i]? = some v := by rw [← seq_of_forall₂ hp.seqs]; exact hv
  obtain ⟨h1, h2⟩ := step_refines hp (op := .inverse i) trivial hi
  have hplain : p.step (.inverse i) = (.ok .handle, { p with
      seqs := p.seqs ++ [⟨v.dimension, false, (v.entries.map EntryVal.dagger).reverse, none⟩] }) := by
    simp only [Plain.step, Plain.with_, hpv, hl, Bool.false_eq_true, if_false]
  rw [hplain] at h1 h2
  rw [← hc'] at h2
  have hlen : c.seqs.length = p.seqs.length := hp.seqs.length_eq
  have hview : c'.seq c.seqs.length =
      some ⟨v.dimension, false, (v.entries.map EntryVal.dagger).reverse, none⟩ := by
    rw [seq_of_forall₂ h2.seqs, hlen]; simp
  refine ⟨?_, hview, ?_⟩
  · rcases hres : (c.step 0 (.inverse i)).1 with e | obs
    · rw [hres] at h1; exact absurd h1 (by simp [SameResult])
    · rw [hres] at h1
      cases obs with
      | handle => rfl
      | _ => exact absurd h1 (by simp [SameResult, SameObs])
  · have hr : c'.Reachable := hc' ▸ hc.step trivial hi
    obtain ⟨n, u, h3, h4, h5, -⟩ := C15_product hr hview
    refine ⟨n, u, h3, circuit_inverse, h4, ?_⟩
    simp only at h5
    rwa [circuit_inverse] at h5

/-- Sequences whose gates are pairwise different do not share entry objects. -/
theorem C17_distinct_gates {τ : Arith} {c : Client} (hc : c.ReachableAny τ) {i : ℕ} {v : SeqView}
    (hv : c.seq i = some v) (hd : v.entries.Nodup) : c.Unshared i := by
  obtain ⟨r, o, h1, h2, rfl⟩ := seq_eq_some hv
  intro r' o' hr ho
  rw [h1] at hr; cases hr
  rw [h2] at ho; cases ho
  have hlt := (hc.ok.wf.seq h2).entries.lt
  have hd' : (valsOf c.world.entries o.entries).Nodup := hd
  revert hd' hlt
  generalize o.entries = rs
  induction rs with
  | nil => simp
  | cons a rs ih =>
    intro hlt hd'
    have ha := List.getElem?_eq_getElem (hlt a (by simp))
    rw [valsOf_cons ha, List.nodup_cons] at hd'
    rw [List.nodup_cons]
    exact ⟨fun hm => hd'.1 (mem_valsOf.mpr ⟨a, hm, _, ha, rfl⟩), ih (fun x hx => hlt x (by simp [hx])) hd'.2⟩

theorem inverse_entries {τ : Arith} {c : Client} (hcok : c.Ok τ) {i : ℕ} {v : SeqView}
    (hv : c.seq i = some v) (hi : c.Unshared i) {obs : Client.Obs} (hok : (c.step τ (.inverse i)).1 = .ok obs) :
    ∃ es, (c.step τ (.inverse i)).2.seq c.seqs.length = some ⟨v.dimension, false, es.reverse, none⟩ ∧
      List.Forall₂ (fun e e' => e.unitary.inverse τ = .ok e'.unitary ∧ e'.applyTo = e.applyTo) v.entries es := by
  obtain ⟨r, o, h1, h2, rfl⟩ := seq_eq_some hv
  have hnd := hi r o h1 h2
  have hw := inverse_wp hcok.wf h2
  unfold Wp at hw
  have hstep : c.step τ (.inverse i) = c.call (Seq.inverse τ r) (fun _ _ => .handle) (fun _ => []) (fun s' => [s']) := by
    simp only [Client.step, Client.with_, h1]
  rw [hstep] at hok ⊢
  unfold Client.call at hok ⊢
  rcases hm : Seq.inverse τ r c.world with ⟨e | t, w'⟩
  · rw [hm] at hok; cases hok
  · rw [hm] at hw
    simp only
    obtain ⟨rfl, harr, q, q', f, hobj, -, -, hinj, -, hinv⟩ := hw.ok t rfl
    refine ⟨valsOf w'.entries (o.entries.map f), ?_, ?_⟩
    · unfold Client.seq
      simp only
      rw [List.getElem?_append_right (le_refl _)]
      simp only [Nat.sub_self, List.getElem?_cons_zero, Option.bind_some]
      exact view_eq_some.mpr ⟨_, hobj, by simp [viewOf, valsOf_reverse]⟩
    · have hlt := (hcok.wf.seq h2).entries.lt
      show List.Forall₂ _ (valsOf c.world.entries o.entries) _
      have key : ∀ l : List ℕ, (∀ a ∈ l, a ∈ o.entries) → List.Forall₂ (fun e e' : EntryVal =>
          e.unitary.inverse τ = .ok e'.unitary ∧ e'.applyTo = e.applyTo) (valsOf c.world.entries l)
          (valsOf w'.entries (l.map f)) := by
        intro l hl
        induction l with
        | nil => exact .nil
        | cons a l ih =>
          have ha := hl a (by simp)
          have hx := List.getElem?_eq_getElem (hlt a ha)
          obtain ⟨x', h3, h4⟩ := hinv a _ ha hx
          rw [valsOf_cons hx, List.map_cons, valsOf_cons h3]
          refine .cons ?_ (ih fun b hb => hl b (by simp [hb]))
          rw [List.count_eq_one_of_mem hnd ha] at h4
          exact invN_one h4
      exact key o.entries fun a ha => ha

/-- For every matrix arithmetic and every state: if `inverse()` succeeds on a sequence without shared entry
objects, each new entry is the old one with its unitary replaced by `Unitary.inverse()` of it. -/
theorem C17_any_threshold {τ : Arith} {c : Client} (hc : c.ReachableAny τ) {i : ℕ} {v : SeqView}
    (hv : c.seq i = some v) (hi : c.Unshared i) {obs : Client.Obs} (hok : (c.step τ (.inverse i)).1 = .ok obs) :
    ∃ es, (c.step τ (.inverse i)).2.seq c.seqs.length = some ⟨v.dimension, false, es.reverse, none⟩ ∧
      List.Forall₂ (fun e e' => e.unitary.inverse τ = .ok e'.unitary ∧ e'.applyTo = e.applyTo) v.entries es :=
  inverse_entries hc.ok hv hi hok

/-! ## C18: inverse() of a sequence with shared entry objects -/

/-- In every reachable state and for every list-backed sequence: `inverse()` succeeds and its `product()` is the
inverse of the product, but an entry object that occurs `k` times is inverted `k` times.  So its entries are
inverted exactly where `k` is odd. -/
theorem C18_inverted_once_per_occurrence {c : Client} (hc : c.Reachable) {i r : ℕ} {o : SeqObj}
    (hs : c.seqs[i]? = some r) (ho : c.world.seqs[r]? = some o) (hl : o.isArray = false) (c' : Client)
    (hc' : c' = (c.step 0 (.inverse i)).2) :
    (c.step 0 (.inverse i)).1 = .ok .handle ∧
    c'.seq c.seqs.length = some ⟨o.dimension, false, (o.entries.filterMap fun a => (c.world.entries[a]?).map fun x =>
      if o.entries.count a % 2 = 1 then x.toVal.dagger else x.toVal).reverse, none⟩ ∧
    ∃ n u, o.dimension = 2 ^ n ∧ (c'.step 0 (.product c.seqs.length)).1 = .ok (.unitary u) ∧
      u.Holds (circuit n (c.world.vals o.entries))ᴴ := by
  obtain ⟨p, hp⟩ := hc.rel
  have hv : c.seq i = some (viewOf c.world.entries o) := by
    unfold Client.seq; rw [hs]; exact view_eq_some.mpr ⟨o, ho, rfl⟩
  have hpv : p.seqs[i]? = some (viewOf c.world.entries o) := by rw [← seq_of_forall₂ hp.seqs]; exact hv
  obtain ⟨n, hn⟩ := hp.pow _ (List.mem_of_getElem? hpv)
  have hx : Exact0 0 n c.world o := hp.coh.exact0 hp.exact (List.mem_of_getElem? hs) ho hn
  have hw := inverse_wp hp.wf ho
  unfold Wp at hw
  have hstep : c.step 0 (.inverse i) = c.call (Seq.inverse 0 r) (fun _ _ => .handle) (fun _ => []) (fun s' => [s']) := by
    simp only [Client.step, Client.with_, hs]
  rw [hstep] at hc' ⊢
  unfold Client.call at hc' ⊢
  obtain ⟨t, ht⟩ := hw.exact n hx hl
  rcases hm : Seq.inverse 0 r c.world with ⟨e | t', w'⟩
  · rw [hm] at ht; cases ht
  rw [hm] at hw hc'
  simp only at hc' ⊢
  obtain ⟨rfl, harr, q, q', f, hobj, hq, hq', hinj, -, hinv⟩ := hw.ok t' rfl
  have hlt := (hp.wf.seq ho).entries.lt
  have hget : c'.seqs[c.seqs.length]? = some c.world.seqs.length := by
    rw [hc']; simp
  have hgetw : c'.world.seqs[c.world.seqs.length]? =
      some ⟨o.dimension, false, (o.entries.map f).reverse, some q', none, none⟩ := by rw [hc']; exact hobj
  have hok' : c'.Ok 0 := by
    have := (step_frame hc.any.ok (.inverse i)).ok
    rw [hstep] at this
    unfold Client.call at this
    rw [hm] at this
    rw [hc']; exact this
  refine ⟨trivial, ?_, n, q', hn, ?_, ?_⟩
  · unfold Client.seq
    rw [hget]
    simp only [Option.bind_some]
    refine view_eq_some.mpr ⟨_, hgetw, ?_⟩
    unfold viewOf
    simp only [Option.map_none, SeqView.mk.injEq, true_and, and_true]
    rw [valsOf_reverse]
    congr 1
    unfold valsOf
    rw [List.filterMap_map]
    apply List.filterMap_congr
    intro a ha
    have hxa := List.getElem?_eq_getElem (hlt a ha)
    obtain ⟨x', h1, h2⟩ := hinv a _ ha hxa
    have h3 := invN_exact (hp.exact _ (List.mem_of_getElem? hxa)) h2
    simp only [Function.comp, hc', h1, hxa, Option.map_some]
    rw [h3]
  · have hw2 := product_wp hok'.wf hgetw
    unfold Wp at hw2
    obtain ⟨o', hpp⟩ := hw2
    have h1 := (hpp.cached q' rfl).1
    simp only [Client.step, Client.with_, hget]
    unfold Client.call
    rcases hmm : Seq.product 0 c.world.seqs.length c'.world with ⟨e | u, w2⟩
    · rw [hmm] at h1; cases h1
    · rw [hmm] at h1; simp only at h1; cases h1; rfl
  · have hqx : q.Exact (2 ^ n) ∧ q.matrix.toMatrix (2 ^ n) = circuit n (valsOf c.world.entries o.entries) := by
      rcases hop : o.product with _ | q0
      · have h1 := hq.2 hop
        have hr := (hp.wf.seq ho).entries
        have hd : o.dimension = 2 ^ n := hn
        rw [hd] at h1 hr
        obtain ⟨p1, h2, h3⟩ := freshProduct_exact (refsOk_vals hp.wf.entries hr hp.exact)
        rw [h2] at h1; cases h1; exact h3
      · rw [hq.1 q0 hop]; exact hx.prod.prod q0 hop
    obtain ⟨q2, h1, h2, h3⟩ := inverse_exact hqx.1
    rw [h1] at hq'; cases hq'
    refine ⟨h2.rows, h2.cols, ?_⟩
    rw [h3, hqx.2]; rfl

/-- The program that puts one phase gate object twice into a sequence on one qubit. -/
noncomputable def sharedProgram : List Op :=
  [.newEntry (tinyPhase (Real.pi / 4)) [0], .newSeq 2 false [0, 0]]

theorem sharedProgram_reachable (rng : Rng) : ((Client.start rng).run 0 sharedProgram).2.Reachable :=
  ⟨rng, sharedProgram, by
    intro op hop
    simp only [sharedProgram, List.mem_cons, List.not_mem_nil, or_false] at hop
    rcases hop with rfl | rfl
    · exact ⟨2, tinyPhase_exact _⟩
    · exact ⟨1, rfl⟩, ⟨trivial, trivial, trivial⟩, rfl⟩

/-- `s.inverse().product()` is not the product of the entries of `s.inverse()`: the property "the product of a
sequence is the product of its entries" is false after inverting a sequence with a shared entry object. -/
theorem C18_product_disagrees_with_entries (rng : Rng) (c c' : Client)
    (hc : c = ((Client.start rng).run 0 sharedProgram).2) (hc' : c' = (c.step 0 (.inverse 0)).2) :
    ∃ v u, c'.seq 1 = some v ∧ v.dimension = 2 ^ 1 ∧ (c'.step 0 (.product 1)).1 = .ok (.unitary u) ∧
      ¬ u.Holds (circuit 1 v.entries) := by
  have hr : c.Reachable := hc ▸ sharedProgram_reachable rng
  -- the heap after the program
  have hnew : EntryVal.new (tinyPhase (Real.pi / 4)) [0] = .ok ⟨tinyPhase (Real.pi / 4), [0]⟩ :=
    entry_new_ok (qs := [0]) (by simp) (by simp) rfl
  set g : EntryVal := ⟨tinyPhase (Real.pi / 4), [0]⟩ with hg
  have hce : c.seqs = [0] ∧ c.world.seqs = [⟨2, false, [1, 1], none, none, none⟩] ∧
      c.world.entries = [⟨g, []⟩, ⟨g, []⟩] := by
    have h1 : (Client.start rng).step 0 (.newEntry (tinyPhase (Real.pi / 4)) [0]) =
        (.ok .handle, ⟨⟨[⟨g, []⟩], [], [], rng⟩, [0], []⟩) := by
      simp only [Client.step, Entry.new, hnew]
      rfl
    have h2 : Seq.new 2 false [0, 0] ⟨[⟨g, []⟩], [], [], rng⟩ =
        (.ok 0, ⟨[⟨g, []⟩, ⟨g, []⟩], [⟨2, false, [1, 1], none, none, none⟩], [], rng⟩) := by
      unfold Seq.new
      rw [PyM.bind_of_ok ((forM_assertIsEntryValid (by simp)).1 ?_)]
      · rfl
      · intro r hr
        simp only [List.mem_cons, List.not_mem_nil, or_false, or_self] at hr
        subst hr
        exact ⟨⟨g, []⟩, rfl, le_refl _, le_refl _⟩
    rw [hc, sharedProgram]
    simp only [Client.run, h1]
    have h3 : Client.step 0 ⟨⟨[⟨g, []⟩], [], [], rng⟩, [0], []⟩ (.newSeq 2 false [0, 0]) =
        (.ok .handle, ⟨⟨[⟨g, []⟩, ⟨g, []⟩], [⟨2, false, [1, 1], none, none, none⟩], [], rng⟩, [0], [0]⟩) := by
      simp only [Client.step, getAll, List.getElem?_cons_zero, Client.with_]
      exact (Client.call_eq).1 _ _ h2
    rw [h3]
    exact ⟨rfl, rfl, rfl⟩
  obtain ⟨hs, hws, hwe⟩ := hce
  obtain ⟨-, h2, n, u, h3, h4, h5⟩ := C18_inverted_once_per_occurrence hr (i := 0) (r := 0)
    (o := ⟨2, false, [1, 1], none, none, none⟩) (by rw [hs]; rfl) (by rw [hws]; rfl) rfl c' hc'
  have hn : n = 1 := by
    have : (2 : ℕ) ^ 1 = 2 ^ n := h3
    exact (Nat.pow_right_injective (le_refl 2) this).symm
  subst hn
  rw [hs] at h2 h4
  refine ⟨_, u, h2, rfl, h4, fun hbad => ?_⟩
  have e1 := h5.2.2
  have e2 := hbad.2.2
  rw [e1] at e2
  simp only [World.vals, hwe] at e2
  have e3 : (circuit 1 [g, g])ᴴ = circuit 1 [g, g] := by
    simpa [List.count_cons] using e2
  have hop : g.op 1 = (tinyPhase (Real.pi / 4)).matrix.toMatrix 2 := by
    ext a b
    have hag : AgreeOff 1 [0] a b := by
      intro q hq hq'
      have : q = 0 := by omega
      simp [this] at hq'
    have hga : ∀ x : Fin 2, gather 1 [0] x = x := fun x => by
      simp only [gather, qubit, List.foldl_cons, List.foldl_nil]
      have := x.2
      simp; omega
    unfold EntryVal.op embed
    rw [if_pos hag]
    simp only [hg, hga]
    rfl
  rw [circuit, circuit, circuit, one_mul, hop, tinyPhase_toMatrix] at e3
  have e4 := congrFun (congrFun e3 0) 0
  have e5 : (starRingEnd ℂ) (Complex.exp (-((Real.pi / 4 : ℝ) : ℂ) * Complex.I) *
      Complex.exp (-((Real.pi / 4 : ℝ) : ℂ) * Complex.I)) =
      Complex.exp (-((Real.pi / 4 : ℝ) : ℂ) * Complex.I) * Complex.exp (-((Real.pi / 4 : ℝ) : ℂ) * Complex.I) := by
    simpa [Matrix.mul_apply, Fin.sum_univ_two] using e4
  have e6 : Complex.exp (-((Real.pi / 4 : ℝ) : ℂ) * Complex.I) * Complex.exp (-((Real.pi / 4 : ℝ) : ℂ) * Complex.I) =
      -Complex.I := by
    rw [← Complex.exp_add, ← Complex.exp_neg_pi_div_two_mul_I]
    congr 1; push_cast; ring
  rw [e6] at e5
  have e7 := congrArg Complex.im e5
  norm_num at e7

end Stoq
