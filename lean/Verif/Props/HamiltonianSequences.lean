import Verif.Proofs.Hamiltonian
import Verif.Proofs.Session
import Verif.Proofs.Overlap

/-!
# C46, C47, C49: ideal, Trotter and QDRIFT sequences
-/

namespace Stoq

open World Matrix

/-! ## Consequences of the outcome of the common part -/

/-- The call made the new sequence `s` with the gates `es`, and its product is the circuit of these gates. -/
structure Builds (n : ℕ) (es : List EntryVal) (w : World) (s : SRef) (w' : World) : Prop where
  new : w.view s = none
  view : w'.view s = some ⟨2 ^ n, false, es, none⟩
  product : ∃ p, (Seq.product 0 s w').1 = .ok p ∧ p.Exact (2 ^ n) ∧ p.Holds (circuit n es)

theorem builds_of_post {n : ℕ} {G : EntryVal → Prop} {fresh : PyM Rng (List EntryVal)} {w : World}
    {out : Except PyErr SRef × World} (hp : BuildPost 0 G fresh (2 ^ n) w out.1 out.2)
    (hex : ∀ x ∈ w.entries, x.toVal.Exact) (hG : ∀ v, G v → v.Exact) {vs : List EntryVal} {r : Rng}
    (hf : fresh w.rng = (.ok vs, r)) (hvs : ∀ v ∈ vs, v.Fits n) :
    ∃ s w', out = (.ok s, w') ∧ Builds n vs w s w' ∧ w'.rng = r := by
  have h1 := hp.fits n vs rfl (by rw [hf]) hvs
  obtain ⟨h2, vs', rs, h3, -, h4, h5⟩ := hp.ok _ h1
  rw [hf] at h3
  cases h3
  refine ⟨w.seqs.length, out.2, Prod.ext h1 rfl, ⟨?_, ?_, ?_⟩, by rw [hp.rng, hf]⟩
  · unfold World.view
    rw [List.getElem?_eq_none le_rfl]; rfl
  · exact view_eq_some.mpr ⟨_, h4, by rw [viewOf]; simp [h5]⟩
  · have hx : Exact0 0 n out.2 ⟨2 ^ n, false, rs, none, none, none⟩ :=
      ⟨rfl, rfl, hp.exact _ hex hG, fun p hp => (by cases hp), fun p hp => (by cases hp), fun _ => rfl⟩
    have hpr := product_wp hp.safe.wf h4
    rw [Wp] at hpr
    obtain ⟨o3, hpr⟩ := hpr
    obtain ⟨p, k1, k2, k3, -⟩ := hpr.exact n hx
    exact ⟨p, k1, k2, k2.rows, k2.cols, by rw [k3, h5]⟩

variable {n : ℕ} {Ms : List (Matrix (Fin (2 ^ n)) (Fin (2 ^ n)) ℂ)} {H : Hamiltonian}

theorem Hamiltonian.Of.qubits (hH : H.Of Ms) : H.getQubitCount = n := by
  unfold Hamiltonian.getQubitCount
  rw [hH.terms.1, intLog2_pow]

theorem evolveEntry_good (hn : 1 ≤ n) (hH : H.Of Ms) {P : Arr → ℝ → String → Prop}
    (hP : ∀ h t s, P h t s → ∃ M : Matrix (Fin (2 ^ n)) (Fin (2 ^ n)) ℂ, h.Is M ∧ M.IsHermitian) {v : EntryVal}
    (hv : EvolveEntry 0 H.getQubitCount P v) : v.Exact := by
  rw [hH.qubits] at hv
  obtain ⟨h, t, s, M, -, -, h1⟩ := hv.evolves hn hP
  exact h1.good.2

/-! ## C46 -/

/-- C46: the ideal sequence with `N ≥ 1` steps has `N` equal gates, each evolving all qubits under the whole
Hamiltonian for the time `t / N`; no random numbers are used. -/
theorem C46_ideal_gates {c : Client} {Cs : List Compiler} (hs : Session 0 c Cs)
    (hex : ∀ x ∈ c.world.entries, x.toVal.Exact) (hn : 1 ≤ n) (hH : H.Of Ms) (t : ℝ) {N : ℤ} (hN : 1 ≤ N) :
    ∃ s w' e, H.getIdealSequence 0 t N c.world = (.ok s, w') ∧
      Builds n (List.replicate N.toNat e) c.world s w' ∧ Evolves n "" Ms.sum (t / N) e ∧ w'.rng = c.world.rng := by
  obtain ⟨h1, h2⟩ := hH.total
  obtain ⟨u, h3, h4, h5⟩ := Evolves.of hn h1 h2 (t / N) ""
  have hp := ideal_post H t N hs.ok.1.wf
  rw [Wp] at hp
  have hp := (hp.2.2 (by omega)).2 u h3
  rw [hH.terms.1] at hp
  rw [← hH.applyTo] at h4
  obtain ⟨s, w', g1, g2, g3⟩ := builds_of_post hp hex
    (fun v hv => evolveEntry_good hn hH (fun h t s hP => ⟨_, hP.1 ▸ h1, h2⟩) hv)
    (Hamiltonian.idealVals_eq h4 N.toNat c.world.rng) (fun v hv => by
      obtain ⟨-, rfl⟩ := List.mem_replicate.mp hv
      exact h5.good.1)
  exact ⟨s, w', _, g1, g2, h5, g3⟩

theorem evolution_pow {d : ℕ} (M : Matrix (Fin d) (Fin d) ℂ) (t : ℝ) (k : ℕ) :
    evolution M t ^ k = evolution M (k * t) := by
  induction k with
  | zero => simp [evolution_zero]
  | succ k ih => rw [pow_succ, ih, ← evolution_add]; congr 1; push_cast; ring

/-- Two exact unitaries that agree up to a global phase have distance 0. -/
theorem distance_zero {u v : Unitary} {d : ℕ} (hu : u.Exact d) (hv : v.Exact d)
    (h : SamePhase (u.matrix.toMatrix d) (v.matrix.toMatrix d)) : u.distanceFrom 0 v = .ok 0 := by
  rw [Unitary.distanceFrom_eq hu hv, (overlap_eq_one_iff hu.pos hu.unitary hv.unitary).mpr h, sub_self]

/-- C46: the product of the ideal sequence is the time evolution operator for the whole time, up to a global phase;
the distance between the two is 0. -/
theorem C46_ideal_product {c : Client} {Cs : List Compiler} (hs : Session 0 c Cs)
    (hex : ∀ x ∈ c.world.entries, x.toVal.Exact) (hn : 1 ≤ n) (hH : H.Of Ms) (t : ℝ) {N : ℤ} (hN : 1 ≤ N) :
    ∃ s w' p U, H.getIdealSequence 0 t N c.world = (.ok s, w') ∧ (Seq.product 0 s w').1 = .ok p ∧
      H.getTimeEvolutionOperator 0 t = .ok U ∧ SamePhase (p.matrix.toMatrix (2 ^ n)) (evolution Ms.sum t) ∧
      SamePhase (p.matrix.toMatrix (2 ^ n)) (U.matrix.toMatrix (2 ^ n)) ∧ p.distanceFrom 0 U = .ok 0 := by
  obtain ⟨s, w', e, h1, h2, h3, -⟩ := C46_ideal_gates hs hex hn hH t hN
  obtain ⟨p, h4, h5, h6⟩ := h2.product
  obtain ⟨g1, g2⟩ := hH.total
  obtain ⟨U, h7, h8, h9, -⟩ := C29_evolution (by positivity) g1 g2 t ""
  have hN' : (N : ℝ) ≠ 0 := by exact_mod_cast (by omega : N ≠ 0)
  have hk : ((N.toNat : ℕ) : ℝ) = N := by exact_mod_cast Int.toNat_of_nonneg (by omega : 0 ≤ N)
  have hp : SamePhase (p.matrix.toMatrix (2 ^ n)) (evolution Ms.sum t) := by
    rw [h6.2.2]
    have := circuit_evolves (n := n) (es := List.replicate N.toNat e) (ps := List.replicate N.toNat (Ms.sum, t / N)) (by
      generalize N.toNat = k
      induction k with
      | zero => exact .nil
      | succ k ih => exact .cons ⟨_, h3⟩ ih)
    rwa [List.map_replicate, List.reverse_replicate, List.prod_replicate, evolution_pow, hk,
      mul_div_cancel₀ _ hN'] at this
  have hU := samePhase_of_left hp h9
  exact ⟨s, w', p, U, h1, h4, h7, hp, hU, distance_zero h5 h8 hU⟩

/-- C46: with 0 steps a ZeroDivisionError is raised and nothing changes. -/
theorem C46_ideal_zero (τ : Arith) (H : Hamiltonian) (t : ℝ) (w : World) :
    H.getIdealSequence τ t 0 w = (.error .zeroDivision, w) := by
  unfold Hamiltonian.getIdealSequence
  rw [raiseUnless_of_not (by simp)]
  rfl

/-- C46: with a negative number of steps the result is an empty sequence. -/
theorem C46_ideal_negative {c : Client} {Cs : List Compiler} (hs : Session 0 c Cs)
    (hex : ∀ x ∈ c.world.entries, x.toVal.Exact) (hn : 1 ≤ n) (hH : H.Of Ms) (t : ℝ) {N : ℤ} (hN : N < 0) :
    ∃ s w', H.getIdealSequence 0 t N c.world = (.ok s, w') ∧ Builds n [] c.world s w' := by
  obtain ⟨h1, h2⟩ := hH.total
  obtain ⟨u, h3, -, -⟩ := Evolves.of hn h1 h2 (t / N) ""
  have hp := ideal_post H t N hs.ok.1.wf
  rw [Wp] at hp
  have hp := (hp.2.2 (by omega)).2 u h3
  rw [hH.terms.1, Int.toNat_of_nonpos hN.le] at hp
  obtain ⟨s, w', g1, g2, -⟩ := builds_of_post hp hex
    (fun v hv => evolveEntry_good hn hH (fun h t s hP => ⟨_, hP.1 ▸ h1, h2⟩) hv) (vs := []) rfl (by simp)
  exact ⟨s, w', g1, g2⟩

/-- C46: for every matrix arithmetic, the result of a successful call is a new sequence of gates which all are the
time evolution operator for the time `t / N` on all qubits. -/
theorem C46_ideal_shape {τ : Arith} {c : Client} {Cs : List Compiler} (hs : Session τ c Cs) {H : Hamiltonian} {t : ℝ}
    {N : ℤ} {s : SRef} {w' : World} (h : H.getIdealSequence τ t N c.world = (.ok s, w')) :
    c.world.view s = none ∧ ∃ es, w'.view s = some ⟨H.dimension, false, es, none⟩ ∧ es.length = N.toNat ∧
      ∀ e ∈ es, H.getTimeEvolutionOperator τ (t / N) = .ok e.unitary ∧ e.applyTo = List.range H.getQubitCount := by
  have hp := ideal_post H t N hs.ok.1.wf
  rw [Wp, h] at hp
  obtain ⟨-, h0, hp⟩ := hp
  have hN : N ≠ 0 := fun hN => by cases (h0 hN).1
  obtain ⟨h1, h2⟩ := hp hN
  rcases hu : H.getTimeEvolutionOperator τ (t / N) with e | u
  · cases (h1 e hu).1
  have hb := h2 u hu
  obtain ⟨rfl, vs, rs, g1, -, g2, g3⟩ := hb.ok s rfl
  obtain ⟨-, g4, g5⟩ := Hamiltonian.idealVals_ok (Prod.ext g1 rfl)
  refine ⟨by unfold World.view; rw [List.getElem?_eq_none le_rfl]; rfl, vs, ?_, g4, fun e he => ?_⟩
  · exact view_eq_some.mpr ⟨_, g2, by rw [viewOf]; simp [g3]⟩
  · obtain ⟨-, h3, h4⟩ := entryNew_range (g5 e he)
    exact ⟨by rw [h3], h4⟩

/-- C46: what the client held before is unchanged, also after a failing call. -/
theorem C46_ideal_frame {τ : Arith} {c : Client} {Cs : List Compiler} (hs : Session τ c Cs) (H : Hamiltonian) (t : ℝ)
    (N : ℤ) {c' : Client} (hc' : c' = (c.call (H.getIdealSequence τ t N) (fun _ _ => .handle) (fun _ => [])
      (fun s => [s])).2) :
    (∀ i v, c.seq i = some v → c'.seq i = some v) ∧ (∀ i v, c.entry i = some v → c'.entry i = some v) ∧
      ∀ C ∈ Cs, c'.world.annealing C = c.world.annealing C := by
  subst hc'
  have hp := ideal_post H t N hs.ok.1.wf
  rw [Wp] at hp
  exact hp.1.frame (f := fun s => s) hs.ok.1 hs.ok.2

/-! ## C47 -/

theorem Hamiltonian.Of.trotterEntry (hn : 1 ≤ n) (hH : H.Of Ms) (ts : ℝ) {i : ℕ} (hi : i < Ms.length) :
    ∃ v M, H.TrotterEntry 0 ts i v ∧ Ms[i]? = some M ∧ Evolves n (toString i) M ts v := by
  rw [← hH.length] at hi
  have ht := List.getElem?_eq_getElem hi
  obtain ⟨M, h1, h2⟩ := hH.get ht
  obtain ⟨u, h3, h4, h5⟩ := Evolves.of hn h2.is h2.herm ts (toString i)
  exact ⟨_, M, ⟨_, u, ht, h3, by rw [hH.applyTo]; exact h4⟩, h1, h5⟩

theorem Hamiltonian.TrotterEntry.unique {τ : Arith} {ts : ℝ} {i : ℕ} {v v' : EntryVal} (h : H.TrotterEntry τ ts i v)
    (h' : H.TrotterEntry τ ts i v') : v = v' := by
  obtain ⟨a, b, h1, h2, h3⟩ := h
  obtain ⟨a', b', h1', h2', h3'⟩ := h'
  rw [h1] at h1'; cases h1'
  rw [h2] at h2'; cases h2'
  rw [h3] at h3'; cases h3'
  rfl

theorem Hamiltonian.Of.trotterEvolves (hn : 1 ≤ n) (hH : H.Of Ms) {ts : ℝ} {i : ℕ} {v : EntryVal}
    (h : H.TrotterEntry 0 ts i v) : ∃ M, Ms[i]? = some M ∧ Evolves n (toString i) M ts v := by
  have hi : i < Ms.length := by
    obtain ⟨a, b, h1, -⟩ := h
    rw [← hH.length]
    exact (List.getElem?_eq_some_iff.mp h1).1
  obtain ⟨v', M, h1, h2, h3⟩ := hH.trotterEntry hn ts hi
  rw [h.unique h1]
  exact ⟨M, h2, h3⟩

theorem Hamiltonian.Of.trotterP (hH : H.Of Ms) {ts : ℝ} {h : Arr} {t : ℝ} {s : String} (hP : H.TrotterP ts h t s) :
    ∃ M : Matrix (Fin (2 ^ n)) (Fin (2 ^ n)) ℂ, h.Is M ∧ M.IsHermitian := by
  obtain ⟨-, i, term, h1, rfl, -⟩ := hP
  obtain ⟨M, -, h2⟩ := hH.get h1
  exact ⟨M, h2.is, h2.herm⟩

/-- C47: a Trotter sequence with `N ≥ 1` steps visits, in each step, every term exactly once, in the given order if
not randomised, and evolves all qubits under it for the time `t / N`. -/
theorem C47_trotter_gates {c : Client} {Cs : List Compiler} (hs : Session 0 c Cs)
    (hex : ∀ x ∈ c.world.entries, x.toVal.Exact) (hn : 1 ≤ n) (hH : H.Of Ms) (t : ℝ) {N : ℤ} (hN : 1 ≤ N)
    (randomize : Bool) :
    ∃ s w' es, ∃ orders : List (List ℕ), H.getTrotterSequence 0 t N randomize c.world = (.ok s, w') ∧
      Builds n es c.world s w' ∧ orders.length = N.toNat ∧
      (∀ o ∈ orders, o.Perm (List.range Ms.length)) ∧
      (randomize = false → w'.rng = c.world.rng ∧ ∀ o ∈ orders, o = List.range Ms.length) ∧
      List.Forall₂ (fun i e => ∃ M, Ms[i]? = some M ∧ Evolves n (toString i) M (t / N) e) orders.flatten es := by
  have hp := trotter_post H t N randomize hs.ok.1.wf
  rw [Wp] at hp
  have hp := hp.2.2 (by omega)
  obtain ⟨vs, r, hf⟩ := Hamiltonian.trotterVals_eq (τ := 0) (ts := t / N) (randomize := randomize) (k := N.toNat)
    (is := List.range H.terms.length) (H := H) (fun i hi => by
      rw [List.mem_range, hH.length] at hi
      obtain ⟨v, -, h, -⟩ := hH.trotterEntry hn (t / N) hi
      exact ⟨v, h⟩) c.world.rng
  obtain ⟨orders, g1, g2, g3, g4⟩ := Hamiltonian.trotterVals_ok hf
  have g5 := g4.imp fun i v h => hH.trotterEvolves hn h
  rw [hH.terms.1] at hp
  obtain ⟨s, w', k1, k2, k3⟩ := builds_of_post hp hex (fun v hv => evolveEntry_good hn hH (fun _ _ _ => hH.trotterP) hv)
    hf (fun v hv => by
      obtain ⟨i, hi⟩ := List.mem_iff_getElem?.mp hv
      rcases forall₂_getElem? g5 i with ⟨-, h⟩ | ⟨a, b, -, h, M, -, hE⟩
      · rw [h] at hi; cases hi
      · rw [h] at hi; cases hi
        exact hE.good.1)
  rw [hH.length] at g2 g3
  exact ⟨s, w', vs, orders, k1, k2, g1, g2, fun h => ⟨k3.trans (g3 h).1, (g3 h).2⟩, g5⟩

/-- One Trotter step that visits the terms in the order `o`. -/
noncomputable def trotterMatrix (Ms : List (Matrix (Fin (2 ^ n)) (Fin (2 ^ n)) ℂ)) (ts : ℝ) (o : List ℕ) :
    Matrix (Fin (2 ^ n)) (Fin (2 ^ n)) ℂ :=
  (o.map fun i => evolution (Ms.getD i 0) ts).reverse.prod

theorem circuit_trotter {ts : ℝ} {orders : List (List ℕ)} {es : List EntryVal}
    (h : List.Forall₂ (fun i e => ∃ M, Ms[i]? = some M ∧ Evolves n (toString i) M ts e) orders.flatten es) :
    SamePhase (circuit n es) (orders.map (trotterMatrix Ms ts)).reverse.prod := by
  have h1 : SamePhase (circuit n es) ((orders.flatten.map fun i => evolution (Ms.getD i 0) ts).reverse.prod) := by
    have := circuit_evolves (n := n) (es := es) (ps := orders.flatten.map fun i => (Ms.getD i 0, ts)) (by
      rw [List.forall₂_map_right_iff]
      refine h.flip.imp ?_
      rintro e i ⟨M, h1, h2⟩
      exact ⟨_, by rw [List.getD_eq_getElem?_getD, h1]; exact h2⟩)
    rwa [List.map_map] at this
  have h2 : (orders.flatten.map fun i => evolution (Ms.getD i 0) ts).reverse.prod =
      (orders.map (trotterMatrix Ms ts)).reverse.prod := by
    clear h h1
    induction orders with
    | nil => rfl
    | cons o os ih =>
      rw [List.flatten_cons, List.map_append, List.reverse_append, List.prod_append, ih, List.map_cons,
        List.reverse_cons, List.prod_append, List.prod_singleton]
      rfl
  rwa [h2] at h1

/-- The product of the evolutions under commuting matrices is the evolution under their sum. -/
theorem evolution_commute {d : ℕ} {A B : Matrix (Fin d) (Fin d) ℂ} (h : Commute A B) (t : ℝ) :
    evolution (A + B) t = evolution A t * evolution B t := by
  unfold evolution
  rw [smul_add, Matrix.exp_add_of_commute _ _ ((h.smul_left _).smul_right _)]

theorem evolution_sum {d : ℕ} {As : List (Matrix (Fin d) (Fin d) ℂ)}
    (h : ∀ A ∈ As, ∀ B ∈ As, Commute A B) (t : ℝ) :
    (As.map fun A => evolution A t).reverse.prod = evolution As.sum t := by
  induction As with
  | nil => simp [evolution]
  | cons A As ih =>
    rw [List.map_cons, List.reverse_cons, List.prod_append, List.prod_singleton,
      ih fun B hB C hC => h B (by simp [hB]) C (by simp [hC]), List.sum_cons, add_comm, evolution_commute]
    exact (Commute.list_sum_right _ _ fun B hB => h A (by simp) B (by simp [hB])).symm

theorem map_getD_perm {α : Type} {l : List α} {d : α} {o : List ℕ} (h : o.Perm (List.range l.length)) :
    (o.map fun i => l.getD i d).Perm l := by
  refine (h.map _).trans (List.Perm.of_eq ?_)
  refine List.ext_getElem (by simp) fun i h1 h2 => ?_
  simp at h1
  simp [h1]

theorem trotterMatrix_commute (h : ∀ A ∈ Ms, ∀ B ∈ Ms, Commute A B) (ts : ℝ) {o : List ℕ}
    (ho : o.Perm (List.range Ms.length)) : trotterMatrix Ms ts o = evolution Ms.sum ts := by
  have hp := map_getD_perm (d := 0) ho
  have := evolution_sum (As := o.map fun i => Ms.getD i 0)
    (fun A hA B hB => h A (hp.mem_iff.mp hA) B (hp.mem_iff.mp hB)) ts
  rw [List.map_map, hp.sum_eq] at this
  exact this

/-- C47: if the terms commute, the product of the Trotter sequence is the time evolution operator up to a global
phase, for every number of steps and every outcome of the shuffles. -/
theorem C47_trotter_commuting {c : Client} {Cs : List Compiler} (hs : Session 0 c Cs)
    (hex : ∀ x ∈ c.world.entries, x.toVal.Exact) (hn : 1 ≤ n) (hH : H.Of Ms)
    (hcomm : ∀ A ∈ Ms, ∀ B ∈ Ms, Commute A B) (t : ℝ) {N : ℤ} (hN : 1 ≤ N) (randomize : Bool) :
    ∃ s w' p U, H.getTrotterSequence 0 t N randomize c.world = (.ok s, w') ∧ (Seq.product 0 s w').1 = .ok p ∧
      H.getTimeEvolutionOperator 0 t = .ok U ∧ SamePhase (p.matrix.toMatrix (2 ^ n)) (evolution Ms.sum t) ∧
      p.distanceFrom 0 U = .ok 0 := by
  obtain ⟨s, w', es, orders, h1, h2, h3, h4, -, h5⟩ := C47_trotter_gates hs hex hn hH t hN randomize
  obtain ⟨p, k1, k2, k3⟩ := h2.product
  obtain ⟨g1, g2⟩ := hH.total
  obtain ⟨U, g3, g4, g5, -⟩ := C29_evolution (by positivity) g1 g2 t ""
  have hN' : (N : ℝ) ≠ 0 := by exact_mod_cast (by omega : N ≠ 0)
  have hk : ((N.toNat : ℕ) : ℝ) = N := by exact_mod_cast Int.toNat_of_nonneg (by omega : 0 ≤ N)
  have hp : SamePhase (p.matrix.toMatrix (2 ^ n)) (evolution Ms.sum t) := by
    rw [k3.2.2]
    have := circuit_trotter h5
    have e : orders.map (trotterMatrix Ms (t / N)) = List.replicate N.toNat (evolution Ms.sum (t / N)) := by
      rw [List.eq_replicate_iff]
      refine ⟨by simp [h3], ?_⟩
      intro A hA
      obtain ⟨o, ho, rfl⟩ := List.mem_map.mp hA
      exact trotterMatrix_commute hcomm _ (h4 o ho)
    rwa [e, List.reverse_replicate, List.prod_replicate, evolution_pow, hk, mul_div_cancel₀ _ hN'] at this
  exact ⟨s, w', p, U, h1, k1, g3, hp, distance_zero k2 g4 (samePhase_of_left hp g5)⟩

/-- C47: with 0 steps a ZeroDivisionError is raised and nothing changes. -/
theorem C47_trotter_zero (τ : Arith) (H : Hamiltonian) (t : ℝ) (randomize : Bool) (w : World) :
    H.getTrotterSequence τ t 0 randomize w = (.error .zeroDivision, w) := by
  unfold Hamiltonian.getTrotterSequence
  rw [raiseUnless_of_not (by simp)]
  rfl

/-- C47: for every matrix arithmetic, the gates of a successful call are, step after step, the evolutions under the
terms in the order of the step. -/
theorem C47_trotter_shape {τ : Arith} {c : Client} {Cs : List Compiler} (hs : Session τ c Cs) {H : Hamiltonian} {t : ℝ}
    {N : ℤ} {randomize : Bool} {s : SRef} {w' : World}
    (h : H.getTrotterSequence τ t N randomize c.world = (.ok s, w')) :
    c.world.view s = none ∧ ∃ es, ∃ orders : List (List ℕ), w'.view s = some ⟨H.dimension, false, es, none⟩ ∧
      es.length = N.toNat * H.terms.length ∧ orders.length = N.toNat ∧
      (∀ o ∈ orders, o.Perm (List.range H.terms.length)) ∧
      (randomize = false → w'.rng = c.world.rng ∧ ∀ o ∈ orders, o = List.range H.terms.length) ∧
      List.Forall₂ (fun (i : ℕ) e => ∃ term, H.terms[i]? = some term ∧ e.applyTo = List.range H.getQubitCount ∧
        UnitaryDefinitions.timeEvolution τ term.getMatrix (t / N) (toString i) = .ok e.unitary) orders.flatten es := by
  have hp := trotter_post H t N randomize hs.ok.1.wf
  rw [Wp, h] at hp
  obtain ⟨-, h0, hp⟩ := hp
  have hb := hp fun hN => by cases (h0 hN).1
  obtain ⟨rfl, vs, rs, g1, -, g2, g3⟩ := hb.ok s rfl
  have hrng : w'.rng = _ := hb.rng
  obtain ⟨orders, k1, k2, k3, k4⟩ := Hamiltonian.trotterVals_ok (Prod.ext g1 rfl)
  refine ⟨by unfold World.view; rw [List.getElem?_eq_none le_rfl]; rfl, vs, orders, ?_, ?_, k1, k2, ?_, ?_⟩
  · exact view_eq_some.mpr ⟨_, g2, by rw [viewOf]; simp [g3]⟩
  · have hrep : orders.map List.length = List.replicate orders.length H.terms.length :=
      List.map_eq_replicate_iff.mpr fun o ho => by rw [(k2 o ho).length_eq, List.length_range]
    rw [← k4.length_eq, List.length_flatten, hrep, List.sum_replicate, k1, smul_eq_mul]
  · intro hr
    exact ⟨hrng.trans (k3 hr).1, (k3 hr).2⟩
  · refine k4.imp ?_
    rintro i e ⟨term, u, h1, h2, h3⟩
    obtain ⟨-, h4, h5⟩ := entryNew_range h3
    exact ⟨term, h1, h5, h4 ▸ h2⟩

/-- C47: with randomisation every choice of orders, one for each step, is the outcome for some random numbers. -/
theorem C47_every_order (hn : 1 ≤ n) (hH : H.Of Ms) (t : ℝ) (orders : List (List ℕ)) (hne : orders ≠ [])
    (ho : ∀ o ∈ orders, o.Perm (List.range Ms.length)) :
    ∃ f : ℕ → ℕ, ∀ (c : Client) (Cs : List Compiler), Session 0 c Cs →
      (∀ x ∈ c.world.entries, x.toVal.Exact) →
      (∀ k, c.world.rng.nat (c.world.rng.npos + k) = f k) →
      ∃ s w' es, H.getTrotterSequence 0 t orders.length true c.world = (.ok s, w') ∧
        w'.view s = some ⟨2 ^ n, false, es, none⟩ ∧
        List.Forall₂ (fun i e => ∃ M, Ms[i]? = some M ∧ Evolves n (toString i) M (t / orders.length) e)
          orders.flatten es := by
  rw [← hH.length] at ho
  obtain ⟨f, hf⟩ := Hamiltonian.trotterVals_orders (τ := 0) (H := H) (ts := t / orders.length) orders ho
  refine ⟨f, fun c Cs hs hex hr => ?_⟩
  have hN : (1 : ℤ) ≤ orders.length := by exact_mod_cast List.length_pos_iff.mpr hne
  obtain ⟨s, w', -, -, h, -⟩ := C47_trotter_gates hs hex hn hH t hN true
  have hp := trotter_post H t orders.length true hs.ok.1.wf
  rw [Wp, h] at hp
  have hb := hp.2.2 (by simpa using hne)
  obtain ⟨rfl, vs, rs, g1, -, g2, g3⟩ := hb.ok s rfl
  rw [Int.toNat_natCast, Int.cast_natCast] at g1
  refine ⟨_, w', vs, h, view_eq_some.mpr ⟨_, g2, by rw [viewOf, hH.terms.1]; simp [g3]⟩, ?_⟩
  exact (hf c.world.rng hr vs _ (Prod.ext g1 rfl)).imp fun i v h => hH.trotterEvolves hn h

/-- C47: what the client held before is unchanged, also after a failing call. -/
theorem C47_trotter_frame {τ : Arith} {c : Client} {Cs : List Compiler} (hs : Session τ c Cs) (H : Hamiltonian) (t : ℝ)
    (N : ℤ) (randomize : Bool) {c' : Client} (hc' : c' = (c.call (H.getTrotterSequence τ t N randomize)
      (fun _ _ => .handle) (fun _ => []) (fun s => [s])).2) :
    (∀ i v, c.seq i = some v → c'.seq i = some v) ∧ (∀ i v, c.entry i = some v → c'.entry i = some v) ∧
      ∀ C ∈ Cs, c'.world.annealing C = c.world.annealing C := by
  subst hc'
  have hp := trotter_post H t N randomize hs.ok.1.wf
  rw [Wp] at hp
  exact hp.1.frame (f := fun s => s) hs.ok.1 hs.ok.2

/-! ## C49 -/

theorem Hamiltonian.Of.sumCoefficients (hH : H.Of Ms) : H.sumCoefficients = (Ms.map maxAbsEigenvalue).sum := by
  unfold Hamiltonian.sumCoefficients
  rw [hH.coefficients]

theorem Hamiltonian.Of.probCoefficients (hH : H.Of Ms) :
    H.probCoefficients = Ms.map fun M => maxAbsEigenvalue M / (Ms.map maxAbsEigenvalue).sum := by
  unfold Hamiltonian.probCoefficients
  rw [hH.sumCoefficients]
  have := congrArg (List.map fun x => x / (Ms.map maxAbsEigenvalue).sum) hH.coefficients
  rwa [List.map_map, List.map_map] at this

theorem Hamiltonian.Of.lambda_pos (hH : H.Of Ms) : 0 < (Ms.map maxAbsEigenvalue).sum := by
  have hne : Ms ≠ [] := by
    intro h
    have := hH.length
    rw [h, List.length_nil, List.length_eq_zero_iff] at this
    exact hH.terms.2.1 this
  refine List.sum_pos _ ?_ (by simpa using hne)
  intro x hx
  obtain ⟨M, hM, rfl⟩ := List.mem_map.mp hx
  exact (hH.herm M hM).2

theorem Hamiltonian.Of.prob_sum (hH : H.Of Ms) : H.probCoefficients.sum = 1 := by
  rw [hH.probCoefficients]
  simp only [div_eq_mul_inv]
  rw [List.sum_map_mul_right, mul_inv_cancel₀ hH.lambda_pos.ne']

theorem Hamiltonian.Of.validP (hH : H.Of Ms) : Rng.ValidP H.terms.length H.probCoefficients := by
  refine ⟨List.length_pos_iff.mpr hH.terms.2.1, by simp [Hamiltonian.probCoefficients], ?_, ?_⟩
  · rw [hH.probCoefficients]
    intro x hx
    obtain ⟨M, hM, rfl⟩ := List.mem_map.mp hx
    exact (div_pos (hH.herm M hM).2 hH.lambda_pos).le
  · rw [hH.prob_sum]; norm_num

/-- The matrix divided by its largest absolute eigenvalue. -/
noncomputable def normalised {d : ℕ} (M : Matrix (Fin d) (Fin d) ℂ) : Matrix (Fin d) (Fin d) ℂ :=
  ((1 / maxAbsEigenvalue M : ℝ) : ℂ) • M

theorem TermIs.normalised {d : ℕ} {t : HamiltonianTerm} {M : Matrix (Fin d) (Fin d) ℂ} (h : TermIs t M) :
    t.normalizedMatrix.Is (Stoq.normalised M) ∧ (Stoq.normalised M).IsHermitian := by
  obtain ⟨N, h1, h2, h3⟩ := h.norm
  have : Stoq.normalised M = N := by
    have h0 : t.coefficient ≠ 0 := h.pos.ne'
    unfold Stoq.normalised
    rw [← h.coeff, h2, smul_smul, ← Complex.ofReal_mul, one_div_mul_cancel h0, Complex.ofReal_one, one_smul]
  rw [this]
  exact ⟨h1, h3⟩

theorem Hamiltonian.Of.qdriftEntry (hn : 1 ≤ n) (hH : H.Of Ms) (ts : ℝ) {i : ℕ} (hi : i < Ms.length) :
    ∃ v M, H.QdriftEntry 0 ts i v ∧ Ms[i]? = some M ∧ Evolves n (toString i ++ " λ/N") (normalised M) ts v := by
  rw [← hH.length] at hi
  have ht := List.getElem?_eq_getElem hi
  obtain ⟨M, h1, h2⟩ := hH.get ht
  obtain ⟨u, h3, h4, h5⟩ := Evolves.of hn h2.normalised.1 h2.normalised.2 ts (toString i ++ " λ/N")
  exact ⟨_, M, ⟨_, u, ht, h3, by rw [hH.applyTo]; exact h4⟩, h1, h5⟩

theorem Hamiltonian.Of.qdriftEvolves (hn : 1 ≤ n) (hH : H.Of Ms) {ts : ℝ} {i : ℕ} {v : EntryVal}
    (h : H.QdriftEntry 0 ts i v) :
    ∃ M, Ms[i]? = some M ∧ Evolves n (toString i ++ " λ/N") (normalised M) ts v := by
  have hi : i < Ms.length := by
    obtain ⟨a, b, h1, -⟩ := h
    rw [← hH.length]
    exact (List.getElem?_eq_some_iff.mp h1).1
  obtain ⟨v', M, h1, h2, h3⟩ := hH.qdriftEntry hn ts hi
  obtain ⟨a, b, e1, e2, e3⟩ := h
  obtain ⟨a', b', e1', e2', e3'⟩ := h1
  rw [e1] at e1'; cases e1'
  rw [e2] at e2'; cases e2'
  rw [e3] at e3'; cases e3'
  exact ⟨M, h2, h3⟩

theorem qdrift_gates {w : World} (hwf : w.WF 0)
    (hex : ∀ x ∈ w.entries, x.toVal.Exact) (hn : 1 ≤ n) (hH : H.Of Ms) (t : ℝ) (N : ℤ) {lam : ℝ}
    (hlam : lam = (Ms.map maxAbsEigenvalue).sum) :
    ∃ s w' es, ∃ drawn : List ℕ, H.getQdriftSequence 0 t N w = (.ok s, w') ∧ Builds n es w s w' ∧
      drawn.length = N.toNat ∧
      (∀ (j i : ℕ), drawn[j]? = some i →
        ChosenBy (Ms.map fun M => maxAbsEigenvalue M / lam) (w.rng.unif (w.rng.upos + j)) i) ∧
      w'.rng = { w.rng with upos := w.rng.upos + N.toNat } ∧
      List.Forall₂ (fun i e => ∃ M, Ms[i]? = some M ∧
        Evolves n (toString i ++ " λ/N") (normalised M) (lam * t / N) e) drawn es := by
  subst hlam
  have hp := qdrift_post H t N hwf
  rw [Wp, hH.terms.1, hH.sumCoefficients] at hp
  obtain ⟨vs, r, hf⟩ := Hamiltonian.qdriftVals_eq (τ := 0) (ts := (Ms.map maxAbsEigenvalue).sum * t / N) hH.validP
    (fun i hi => by
      rw [hH.length] at hi
      obtain ⟨v, -, h, -⟩ := hH.qdriftEntry hn ((Ms.map maxAbsEigenvalue).sum * t / N) hi
      exact ⟨v, h⟩) N.toNat w.rng
  obtain ⟨g1, idx, g2, g3, g4⟩ := Hamiltonian.qdriftVals_ok hf
  have g5 := g4.imp fun i v h => hH.qdriftEvolves hn h
  obtain ⟨s, w', k1, k2, k3⟩ := builds_of_post hp hex (fun v hv => evolveEntry_good hn hH (fun h t s hP => by
      obtain ⟨-, i, term, h1, rfl, -⟩ := hP
      obtain ⟨M, -, h2⟩ := hH.get h1
      exact ⟨_, h2.normalised⟩) hv) hf (fun v hv => by
      obtain ⟨i, hi⟩ := List.mem_iff_getElem?.mp hv
      rcases forall₂_getElem? g5 i with ⟨-, h⟩ | ⟨a, b, -, h, M, -, hE⟩
      · rw [h] at hi; cases hi
      · rw [h] at hi; cases hi
        exact hE.good.1)
  refine ⟨s, w', vs, idx, k1, k2, g2, ?_, k3.trans g1, g5⟩
  rw [← hH.probCoefficients]
  exact g3

/-- C49: a QDRIFT sequence with `N` repetitions has `N` gates; the `j`-th one evolves all qubits for the time
`λ t / N` under a normalised term which is drawn, by one uniform number of its own, with probability proportional to
the largest absolute eigenvalue of the term.  `λ` is the sum of these eigenvalues. -/
theorem C49_qdrift_gates {c : Client} {Cs : List Compiler} (hs : Session 0 c Cs)
    (hex : ∀ x ∈ c.world.entries, x.toVal.Exact) (hn : 1 ≤ n) (hH : H.Of Ms) (t : ℝ) (N : ℤ) {lam : ℝ}
    (hlam : lam = (Ms.map maxAbsEigenvalue).sum) :
    ∃ s w' es, ∃ drawn : List ℕ, H.getQdriftSequence 0 t N c.world = (.ok s, w') ∧ Builds n es c.world s w' ∧
      drawn.length = N.toNat ∧
      (∀ (j i : ℕ), drawn[j]? = some i →
        ChosenBy (Ms.map fun M => maxAbsEigenvalue M / lam) (c.world.rng.unif (c.world.rng.upos + j)) i) ∧
      w'.rng = { c.world.rng with upos := c.world.rng.upos + N.toNat } ∧
      List.Forall₂ (fun i e => ∃ M, Ms[i]? = some M ∧
        Evolves n (toString i ++ " λ/N") (normalised M) (lam * t / N) e) drawn es :=
  qdrift_gates hs.ok.1.wf hex hn hH t N hlam

/-- C49: the probabilities are positive and sum to 1, and the mean of the generators of one gate is the generator of
the ideal evolution for the time `t / N`. -/
theorem C49_qdrift_mean (hH : H.Of Ms) (t : ℝ) {N : ℤ} {lam : ℝ} (hlam : lam = (Ms.map maxAbsEigenvalue).sum) :
    (∀ M ∈ Ms, 0 < maxAbsEigenvalue M / lam) ∧ (Ms.map fun M => maxAbsEigenvalue M / lam).sum = 1 ∧
      (Ms.map fun M => ((maxAbsEigenvalue M / lam : ℝ) : ℂ) • ((lam * t / N : ℝ) : ℂ) • normalised M).sum =
        ((t / N : ℝ) : ℂ) • Ms.sum := by
  subst hlam
  refine ⟨fun M hM => div_pos (hH.herm M hM).2 hH.lambda_pos, ?_, ?_⟩
  · rw [← hH.probCoefficients, hH.prob_sum]
  · rw [List.smul_sum]
    congr 1
    refine List.map_congr_left fun M hM => ?_
    have h1 := (hH.herm M hM).2.ne'
    have h2 := hH.lambda_pos.ne'
    unfold normalised
    rw [smul_smul, smul_smul]
    congr 1
    rw [← Complex.ofReal_mul, ← Complex.ofReal_mul]
    congr 1
    field_simp

/-- C49: drawing by a uniform number picks exactly one index, and the numbers that pick `i` form an interval whose
length is the probability of `i`. -/
theorem C49_drawing {p : List ℝ} (hp : ∀ x ∈ p, 0 ≤ x) (hsum : p.sum = 1) :
    (∀ u ∈ Set.Ico (0 : ℝ) 1, ∃! i, ChosenBy p u i) ∧
      ∀ i (hi : i < p.length), ∃ a b, {u | ChosenBy p u i} = Set.Ico a b ∧ 0 ≤ a ∧ b ≤ 1 ∧ b - a = p[i] := by
  have hmono : ∀ i j, i ≤ j → (p.take i).sum ≤ (p.take j).sum := by
    intro i j hij
    rw [← List.take_append_drop i (p.take j), List.take_take, min_eq_left hij, List.sum_append]
    have : 0 ≤ ((p.take j).drop i).sum := List.sum_nonneg fun x hx =>
      hp x (List.mem_of_mem_take (List.mem_of_mem_drop hx))
    linarith
  constructor
  · intro u hu
    have hex : ∃ i, u < (p.take (i + 1)).sum := by
      refine ⟨p.length, ?_⟩
      rw [List.take_of_length_le (by omega), hsum]
      exact hu.2
    classical
    refine ⟨Nat.find hex, ⟨?_, ?_, ?_⟩, ?_⟩
    · by_contra hlt
      push Not at hlt
      rcases Nat.eq_zero_or_pos p.length with h0 | h0
      · rw [List.length_eq_zero_iff.mp h0] at hsum; simp at hsum
      · refine Nat.find_min hex (m := p.length - 1) (by omega) ?_
        rw [List.take_of_length_le (by omega), hsum]
        exact hu.2
    · rw [hsum, mul_one]
      rcases hk : Nat.find hex with _ | k
      · simpa using hu.1
      · have := Nat.find_min hex (m := k) (by omega)
        exact not_lt.mp this
    · rw [hsum, mul_one]; exact Nat.find_spec hex
    · rintro i ⟨h1, h2, h3⟩
      rw [hsum, mul_one] at h2 h3
      refine le_antisymm ?_ (Nat.find_min' hex h3)
      by_contra hlt
      push Not at hlt
      have := hmono _ _ (Nat.succ_le_of_lt hlt)
      have := Nat.find_spec hex
      simp only [Nat.succ_eq_add_one] at *
      linarith
  · intro i hi
    refine ⟨(p.take i).sum, (p.take (i + 1)).sum, ?_, ?_, ?_, ?_⟩
    · ext u
      simp only [ChosenBy, Set.mem_ofPred_eq, Set.mem_Ico, hsum, mul_one]
      exact ⟨fun h => h.2, fun h => ⟨hi, h⟩⟩
    · exact List.sum_nonneg fun x hx => hp x (List.mem_of_mem_take hx)
    · have := hmono (i + 1) p.length (by omega)
      rwa [List.take_length, hsum] at this
    · rw [List.take_succ_eq_append_getElem hi, List.sum_append, List.sum_singleton]; ring

/-- C49: for every matrix arithmetic, the gates of a successful call are evolutions under the normalised matrices of
the drawn terms. -/
theorem C49_qdrift_shape {τ : Arith} {c : Client} {Cs : List Compiler} (hs : Session τ c Cs) {H : Hamiltonian} {t : ℝ}
    {N : ℤ} {s : SRef} {w' : World} (h : H.getQdriftSequence τ t N c.world = (.ok s, w')) :
    c.world.view s = none ∧ ∃ es, ∃ drawn : List ℕ, w'.view s = some ⟨H.dimension, false, es, none⟩ ∧
      drawn.length = N.toNat ∧ es.length = N.toNat ∧
      List.Forall₂ (fun (i : ℕ) e => ∃ term, H.terms[i]? = some term ∧ e.applyTo = List.range H.getQubitCount ∧
        UnitaryDefinitions.timeEvolution τ term.normalizedMatrix (H.sumCoefficients * t / N)
          (toString i ++ " λ/N") = .ok e.unitary) drawn es := by
  have hb := qdrift_post H t N hs.ok.1.wf
  rw [Wp, h] at hb
  obtain ⟨rfl, vs, rs, g1, -, g2, g3⟩ := hb.ok s rfl
  obtain ⟨-, idx, k1, -, k2⟩ := Hamiltonian.qdriftVals_ok (Prod.ext g1 rfl)
  refine ⟨by unfold World.view; rw [List.getElem?_eq_none le_rfl]; rfl, vs, idx, ?_, k1, ?_, ?_⟩
  · exact view_eq_some.mpr ⟨_, g2, by rw [viewOf]; simp [g3]⟩
  · rw [← k2.length_eq, k1]
  · refine k2.imp ?_
    rintro i e ⟨term, u, h1, h2, h3⟩
    obtain ⟨-, h4, h5⟩ := entryNew_range h3
    exact ⟨term, h1, h5, h4 ▸ h2⟩

/-- C49: what the client held before is unchanged, also after a failing call. -/
theorem C49_qdrift_frame {τ : Arith} {c : Client} {Cs : List Compiler} (hs : Session τ c Cs) (H : Hamiltonian) (t : ℝ)
    (N : ℤ) {c' : Client} (hc' : c' = (c.call (H.getQdriftSequence τ t N) (fun _ _ => .handle) (fun _ => [])
      (fun s => [s])).2) :
    (∀ i v, c.seq i = some v → c'.seq i = some v) ∧ (∀ i v, c.entry i = some v → c'.entry i = some v) ∧
      ∀ C ∈ Cs, c'.world.annealing C = c.world.annealing C := by
  subst hc'
  have hp := qdrift_post H t N hs.ok.1.wf
  rw [Wp] at hp
  exact hp.safe.frame (f := fun s => s) hs.ok.1 hs.ok.2

/-! ## Cases that meet the hypotheses -/

/-- There is a Hamiltonian object for every non-empty list of non-zero Hermitian matrices. -/
theorem exists_hamiltonian {Ms : List (Matrix (Fin (2 ^ n)) (Fin (2 ^ n)) ℂ)} (hne : Ms ≠ [])
    (h : ∀ M ∈ Ms, M.IsHermitian ∧ M ≠ 0) : ∃ H, Hamiltonian.Of Ms H := by
  have h1 : ∃ (arrs : List Arr) (terms : List HamiltonianTerm),
      List.Forall₂ (fun a M => a.Is M ∧ M.IsHermitian) arrs Ms ∧
      List.Forall₂ (fun a t => HamiltonianTerm.new a = .ok t) arrs terms ∧ ∀ t ∈ terms, t.dimension = 2 ^ n := by
    clear hne
    induction Ms with
    | nil => exact ⟨[], [], .nil, .nil, by simp⟩
    | cons M Ms ih =>
      obtain ⟨as, ts, g1, g2, g3⟩ := ih fun M' hM' => h M' (by simp [hM'])
      obtain ⟨k1, k2⟩ := h M (by simp)
      have ha : (Arr.ofMatrix M).Is M := by
        refine ⟨rfl, rfl, ?_⟩
        ext i j
        simp [Arr.toMatrix, Arr.ofMatrix]
      obtain ⟨t, ht⟩ := C45_accepts ha k1 k2
      refine ⟨_ :: as, t :: ts, .cons ⟨ha, k1⟩ g1, .cons ht g2, ?_⟩
      intro t' ht'
      rcases List.mem_cons.mp ht' with rfl | ht'
      · exact (C45_normalisation ha ht).1
      · exact g3 t' ht'
  obtain ⟨as, ts, g1, g2, g3⟩ := h1
  cases ts with
  | nil =>
    cases g2
    cases g1
    exact absurd rfl hne
  | cons t ts =>
    refine ⟨⟨t.dimension, t :: ts⟩, as, t :: ts, g1, g2, ?_⟩
    unfold Hamiltonian.new
    simp only [assertE_bind_eq_ok, pure_except, and_true]
    intro t' ht'
    rw [g3 t' ht', g3 t (by simp)]

/-- Pauli X and Pauli Z as the terms of a one-qubit Hamiltonian: they do not commute. -/
theorem example_xz : ∃ H, Hamiltonian.Of (n := 1) [!![0, 1; 1, 0], !![1, 0; 0, -1]] H :=
  exists_hamiltonian (by simp) (by
    intro M hM
    rcases List.mem_cons.mp hM with rfl | hM
    · constructor
      · ext i j; fin_cases i <;> fin_cases j <;> simp
      · intro h; have := congrFun (congrFun h 0) 1; simp at this
    · rw [List.mem_singleton.mp hM]
      constructor
      · ext i j; fin_cases i <;> fin_cases j <;> simp
      · intro h; have := congrFun (congrFun h 0) 0; simp at this)

/-- The theorems on ideal, Trotter and QDRIFT sequences apply to it in a new session. -/
example (rng : Rng) : ∃ H, Hamiltonian.Of (n := 1) [!![0, 1; 1, 0], !![1, 0; 0, -1]] H ∧
    (∃ s w', H.getIdealSequence 0 2 4 (Client.start rng).world = (.ok s, w') ∧
      ∃ es undo, w'.view s = some ⟨2, false, es, undo⟩ ∧ es.length = 4) ∧
    (∃ s w', H.getTrotterSequence 0 2 4 true (Client.start rng).world = (.ok s, w') ∧
      ∃ es undo, w'.view s = some ⟨2, false, es, undo⟩ ∧ es.length = 8) ∧
    (∃ s w', H.getQdriftSequence 0 2 4 (Client.start rng).world = (.ok s, w') ∧
      ∃ es undo, w'.view s = some ⟨2, false, es, undo⟩ ∧ es.length = 4) := by
  obtain ⟨H, hH⟩ := example_xz
  have hs : Session 0 (Client.start rng) [] := .start rng
  have hex : ∀ x ∈ (Client.start rng).world.entries, x.toVal.Exact := by simp [Client.start]
  refine ⟨H, hH, ?_, ?_, ?_⟩
  · obtain ⟨s, w', e, h1, h2, -⟩ := C46_ideal_gates hs hex le_rfl hH 2 (N := 4) (by norm_num)
    exact ⟨s, w', h1, _, _, h2.view, by simp⟩
  · obtain ⟨s, w', es, orders, h1, h2, -⟩ := C47_trotter_gates hs hex le_rfl hH 2 (N := 4) (by norm_num) true
    obtain ⟨-, es', orders', h3, h4, -⟩ := C47_trotter_shape hs h1
    refine ⟨s, w', h1, es, _, h2.view, ?_⟩
    rw [h2.view, Option.some.injEq] at h3
    have h5 : es = es' := (SeqView.mk.inj h3).2.2.1
    rw [h5, h4, hH.length]; rfl
  · obtain ⟨s, w', es, drawn, h1, h2, h3, -, -, h4⟩ := C49_qdrift_gates hs hex le_rfl hH 2 4 rfl
    exact ⟨s, w', h1, es, _, h2.view, by rw [← h4.length_eq, h3]; rfl⟩

end Stoq
