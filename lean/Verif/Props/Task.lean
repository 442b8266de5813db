import Verif.Proofs.Task
import Verif.Props.SequenceMore

/-!
# C58, C59: the sequences the library returns
-/

namespace Stoq

open World Compiler Matrix

/-! ## C58: no shared entry objects -/

/-- C58: from every state of memory whatsoever, with every argument and every matrix arithmetic: a sequence that a
compiler, a verification function or a Hamiltonian returns is a new object, and no entry object occurs in it twice. -/
theorem C58_no_shared_entries {τ : Arith} {T : Task} {w w' : World} {s : SRef} (h : T.run τ w = (.ok s, w')) :
    w.seqs.length ≤ s ∧ ∀ o, w'.seqs[s]? = some o → o.entries.Nodup := Task.new h

/-- C58: in a session the client can use the returned sequence, and `inverse()` meets no shared entries there. -/
theorem C58_returned_sequence {τ : Arith} {c : Client} {Cs : List Compiler} (hs : Session τ c Cs) {T : Task}
    (hT : T.Uses Cs) {obs : Client.Obs} (hok : (c.task τ T).1 = .ok obs) :
    (∃ v, (c.task τ T).2.seq c.seqs.length = some v) ∧ (c.task τ T).2.Unshared c.seqs.length := by
  rcases hr : T.run τ c.world with ⟨e | s, w⟩
  · rw [Client.task_eq.2 e w hr] at hok; cases hok
  · have h1 := (hs.task hT).ok.1.seqs
    rw [Client.task_eq.1 s w hr] at h1 ⊢
    have hlt := h1 s (by simp)
    refine ⟨⟨viewOf w.entries w.seqs[s], ?_⟩, ?_⟩
    · unfold Client.seq
      simp only [List.getElem?_append_right (le_refl _), Nat.sub_self, List.getElem?_cons_zero, Option.bind_some]
      exact view_eq_some.mpr ⟨_, List.getElem?_eq_getElem hlt, rfl⟩
    · intro r o hr' ho
      simp only [List.getElem?_append_right (le_refl _), Nat.sub_self, List.getElem?_cons_zero,
        Option.some.injEq] at hr'
      subst hr'
      exact (Task.new hr).2 o ho

/-- C58: so `inverse()` of a returned sequence, if it succeeds, has each gate inverted exactly once, in reverse
order. -/
theorem C58_inverse {τ : Arith} {c : Client} {Cs : List Compiler} (hs : Session τ c Cs) {T : Task} (hT : T.Uses Cs)
    {obs obs' : Client.Obs} (hok : (c.task τ T).1 = .ok obs) {c1 : Client} (hc1 : c1 = (c.task τ T).2) {v : SeqView}
    (hv : c1.seq c.seqs.length = some v) (hinv : (c1.step τ (.inverse c.seqs.length)).1 = .ok obs') :
    ∃ es, (c1.step τ (.inverse c.seqs.length)).2.seq (c.seqs.length + 1) = some ⟨v.dimension, false, es.reverse, none⟩ ∧
      List.Forall₂ (fun e e' => e.unitary.inverse τ = .ok e'.unitary ∧ e'.applyTo = e.applyTo) v.entries es := by
  subst hc1
  have hlen : (c.task τ T).2.seqs.length = c.seqs.length + 1 := by
    rcases hr : T.run τ c.world with ⟨e | s, w⟩
    · rw [Client.task_eq.2 e w hr] at hok; cases hok
    · rw [Client.task_eq.1 s w hr]; simp
  have := inverse_entries (hs.task hT).ok.1 hv (C58_returned_sequence hs hT hok).2 hinv
  rwa [hlen] at this

/-! ## C59: returned sequences behave as lists of gates -/

/-- C59: in every program that mixes calls on sequences with compilers, verification functions and Hamiltonians, the
sequences and entries hold what the specification says, and all gates are exactly unitary. -/
theorem C59_state {c : Client} {Cs : List Compiler} {p : Plain} (h : Mirror c Cs p) :
    (∀ i, c.seq i = p.seqs[i]?) ∧ (∀ i, c.entry i = p.entries[i]?) ∧ (∀ x ∈ c.world.entries, x.toVal.Exact) ∧
      Session 0 c Cs :=
  ⟨seq_of_forall₂ h.rel.2.seqs, entry_of_forall₂ h.rel.2.ents, h.rel.2.exact, h.rel.1⟩

/-- C59: every call on a sequence (whether the client made it or the library returned it) has the specified result,
including the exception raised. -/
theorem C59_results {c : Client} {Cs : List Compiler} {p : Plain} (h : Mirror c Cs p) {op : Op} (hq : op.OnQubits)
    (hi : op.NoSharedInverse c) : SameResult (c.step 0 op).1 (p.step op).1 := (step_refines h.rel.2 hq hi).1

/-- C59: a call that returns a sequence adds one sequence without shared entries and changes no other; a call that
raises changes none. -/
theorem C59_tasks {c : Client} {Cs : List Compiler} {p : Plain} (h : Mirror c Cs p) {T : Task} (hT : T.Uses Cs)
    (hQ : T.OnQubits) :
    (∃ e, (c.task 0 T).1 = .error e ∧ Mirror (c.task 0 T).2 Cs p) ∨
    ∃ v n, (c.task 0 T).1 = .ok .handle ∧ (c.task 0 T).2.seq p.seqs.length = some v ∧ v.isArray = false ∧
      v.dimension = 2 ^ n ∧ (c.task 0 T).2.Unshared p.seqs.length ∧
      Mirror (c.task 0 T).2 Cs { p with seqs := p.seqs ++ [v] } := by
  have hlen : c.seqs.length = p.seqs.length := h.rel.2.seqs.length_eq
  rcases hr : T.run 0 c.world with ⟨e | s, w⟩
  · left
    refine ⟨e, ?_, .taskFails T h hT hQ hr⟩
    rw [Client.task_eq.2 e w hr]
  · right
    have hok : (c.task 0 T).1 = .ok .handle := by rw [Client.task_eq.1 s w hr]
    obtain ⟨v, h1, h2, -⟩ := (h.rel.2.task h.rel.1 hT hQ).2 s w hr
    have hM := Mirror.taskOk T h hT hQ hr h1
    obtain ⟨n, hn⟩ := hM.rel.2.pow v (by simp)
    refine ⟨v, n, hok, ?_, h2, hn, ?_, hM⟩
    · rw [(C59_state hM).1]; simp
    · rw [← hlen]; exact (C58_returned_sequence h.rel.1 hT hok).2

theorem Rel.product {c : Client} {p : Plain} (hp : Rel c p) {i : ℕ} {v : SeqView} (hv : p.seqs[i]? = some v) {n : ℕ}
    (hn : v.dimension = 2 ^ n) : ∃ u, (c.step 0 (.product i)).1 = .ok (.unitary u) ∧ u.Holds (circuit n v.entries) := by
  obtain ⟨h1, -⟩ := step_refines hp (op := .product i) trivial trivial
  have hplain : p.step (.product i) = (.ok (.op (Nat.log 2 v.dimension) (circuit (Nat.log 2 v.dimension) v.entries)), p) := by
    simp only [Plain.step, Plain.with_, hv]
  rw [hplain] at h1
  rcases hres : (c.step 0 (.product i)).1 with e | obs
  · rw [hres] at h1; exact absurd h1 (by simp [SameResult])
  · rw [hres] at h1
    cases obs with
    | unitary u =>
      refine ⟨u, rfl, ?_⟩
      have : Nat.log 2 v.dimension = n := by rw [hn, Nat.log_pow (by norm_num)]
      subst this
      exact h1
    | _ => exact absurd h1 (by simp [SameResult, SameObs])

/-- C59: `product()` of a returned sequence is the product of its gates, also after any calls on other objects, and
its `inverse()` never fails: it has the inverted gates in reverse order, and its product is the inverse. -/
theorem C59_use {c : Client} {Cs : List Compiler} {p : Plain} (h : Mirror c Cs p) {i : ℕ} {v : SeqView}
    (hv : c.seq i = some v) :
    ∃ n u, v.dimension = 2 ^ n ∧ (c.step 0 (.product i)).1 = .ok (.unitary u) ∧ u.Holds (circuit n v.entries) ∧
      (v.isArray = false → c.Unshared i → ∃ u', ∀ c', c' = (c.step 0 (.inverse i)).2 →
        (c.step 0 (.inverse i)).1 = .ok .handle ∧
        c'.seq p.seqs.length = some ⟨v.dimension, false, (v.entries.map EntryVal.dagger).reverse, none⟩ ∧
        (c'.step 0 (.product p.seqs.length)).1 = .ok (.unitary u') ∧ u'.Holds (circuit n v.entries)ᴴ) := by
  have hp := h.rel.2
  have hpv : p.seqs[i]? = some v := by rw [← seq_of_forall₂ hp.seqs]; exact hv
  obtain ⟨n, hn⟩ := hp.pow v (List.mem_of_getElem? hpv)
  obtain ⟨u, h1, h2⟩ := hp.product hpv hn
  refine ⟨n, u, hn, h1, h2, fun hl hi => ?_⟩
  obtain ⟨h3, h4⟩ := step_refines hp (op := .inverse i) trivial hi
  have hplain : p.step (.inverse i) = (.ok .handle, { p with
      seqs := p.seqs ++ [⟨v.dimension, false, (v.entries.map EntryVal.dagger).reverse, none⟩] }) := by
    simp only [Plain.step, Plain.with_, hpv, hl, Bool.false_eq_true, if_false]
  rw [hplain] at h3 h4
  obtain ⟨u', h5, h6⟩ := h4.product (i := p.seqs.length) (n := n)
    (v := ⟨v.dimension, false, (v.entries.map EntryVal.dagger).reverse, none⟩) (by simp) hn
  rw [show circuit n (SeqView.entries ⟨v.dimension, false, (v.entries.map EntryVal.dagger).reverse, none⟩) =
    (circuit n v.entries)ᴴ from circuit_inverse] at h6
  refine ⟨u', ?_⟩
  rintro c' rfl
  refine ⟨?_, ?_, h5, h6⟩
  · rcases hres : (c.step 0 (.inverse i)).1 with e | obs
    · rw [hres] at h3; exact absurd h3 (by simp [SameResult])
    · rw [hres] at h3
      cases obs with
      | handle => rfl
      | _ => exact absurd h3 (by simp [SameResult, SameObs])
  · rw [seq_of_forall₂ h4.seqs]; simp

/-! ## Examples -/

/-- A program: the Trotter sequence of two non-commuting terms in two steps, its `inverse()`, and both combined.  The
combined sequence has eight gates and its product is the identity. -/
example (rng : Rng) : ∃ (H : Hamiltonian) (c : Client) (p : Plain) (v : SeqView) (u : Unitary), Mirror c [] p ∧
    c = ((((Client.start rng).task 0 (.trotter H 1 2 true)).2.run 0 [.inverse 0, .combine [0, 1]]).2) ∧
    c.seq 2 = some v ∧ v.entries.length = 8 ∧ (c.step 0 (.product 2)).1 = .ok (.unitary u) ∧
    u.Holds (1 : Matrix (Fin (2 ^ 1)) (Fin (2 ^ 1)) ℂ) := by
  obtain ⟨H, hH⟩ := example_xz
  have hM0 : Mirror (Client.start rng) [] ⟨[], []⟩ := .start rng
  have hQ : (Task.trotter H 1 2 true).OnQubits := ⟨1, _, le_rfl, hH⟩
  obtain ⟨s, w, es, orders, h1, h2, h3, h4, -, h5⟩ := C47_trotter_gates (Session.start (τ := 0) rng)
    (by simp [Client.start]) le_rfl hH 1 (N := 2) (by norm_num) true
  have hr : (Task.trotter H 1 2 true).run 0 (Client.start rng).world = (.ok s, w) := h1
  have hM1 := Mirror.taskOk (.trotter H 1 2 true) hM0 trivial hQ hr h2.view
  set c1 := ((Client.start rng).task 0 (.trotter H 1 2 true)).2 with hc1
  have hun : c1.Unshared 0 := (C58_returned_sequence (c := Client.start rng) (.start rng) (T := .trotter H 1 2 true) trivial
    (obs := .handle) (by rw [Client.task_eq.1 s w hr])).2
  have hM2 := (hM1.op (.inverse 0) trivial hun).op (.combine [0, 1]) trivial trivial
  have hlen : es.length = 4 := by
    rw [← h5.length_eq, List.length_flatten]
    have : orders.map List.length = List.replicate orders.length 2 := by
      rw [List.eq_replicate_iff]
      refine ⟨by simp, fun k hk => ?_⟩
      obtain ⟨o, ho, rfl⟩ := List.mem_map.mp hk
      simpa using (h4 o ho).length_eq
    rw [this, h3]
    simp
  have hp : (((⟨[], [⟨2 ^ 1, false, es, none⟩]⟩ : Plain).step (.inverse 0)).2.step (.combine [0, 1])).2 =
      ⟨[], [⟨2 ^ 1, false, es, none⟩, ⟨2 ^ 1, false, (es.map EntryVal.dagger).reverse, none⟩,
        ⟨2 ^ 1, false, es ++ (es.map EntryVal.dagger).reverse, none⟩]⟩ := by
    simp [Plain.step, Plain.with_, getAll]
  have hp' : ({ entries := [], seqs := [] ++ [⟨2 ^ 1, false, es, none⟩] } : Plain) =
    ⟨[], [⟨2 ^ 1, false, es, none⟩]⟩ := rfl
  rw [hp', hp] at hM2
  obtain ⟨u, k1, k2⟩ := hM2.rel.2.product (i := 2) (n := 1) rfl rfl
  refine ⟨H, _, _, ⟨2 ^ 1, false, es ++ (es.map EntryVal.dagger).reverse, none⟩, u, hM2, rfl, ?_, ?_, k1, ?_⟩
  · rw [(C59_state hM2).1]; rfl
  · simp [hlen]
  · obtain ⟨q, -, k3, k4⟩ := h2.product
    have : circuit 1 (es ++ (es.map EntryVal.dagger).reverse) = 1 := by
      rw [circuit_append, circuit_inverse, ← k4.2.2]
      exact (_root_.Unitary.mem_iff.mp (Matrix.mem_specialUnitaryGroup_iff.mp k3.2.2.2).1).1
    rw [← this]
    exact k2

end Stoq
