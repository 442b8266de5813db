import Verif.Proofs.RepoTwoQubitsDrift
import Verif.Proofs.RepoEvents

/-! # The test of a Hamiltonian of two qubits: when it passes -/

namespace Stoq

open Matrix Tests MeasureTheory

open scoped Matrix.Norms.L2Operator

namespace Tests

/-- The time evolution operator of the test. -/
noncomputable def target4 : Matrix (Fin (2 ^ 2)) (Fin (2 ^ 2)) ℂ := evolution xyyTerms.sum 1.234

/-- The products `V` of the Trotter sequence and `Q` of the QDRIFT sequence are close to the time evolution, but different from it
and from each other. -/
def Good4 (V Q : Matrix (Fin (2 ^ 2)) (Fin (2 ^ 2)) ℂ) : Prop :=
  1 - overlap target4 V ≤ 0.05 ∧ 1 - overlap target4 Q ≤ 0.05 ∧ ¬ 1 - overlap target4 V ≤ 1 / 100000000 ∧
    ¬ 1 - overlap target4 Q ≤ 1 / 100000000 ∧ ¬ 1 - overlap V Q ≤ 1 / 100000000

theorem twoQubits_iff {H : Hamiltonian} (h1 : twoQubitHamiltonian = .ok H) (hd : H.dimension = 2 ^ 2) (hH : H.Of xyyTerms)
    {Q : (ℕ → Set.Ico (0 : ℝ) 1) → Matrix (Fin (2 ^ 2)) (Fin (2 ^ 2)) ℂ} (hQu : ∀ ω, Q ω ∈ unitaryGroup (Fin (2 ^ 2)) ℂ)
    (hQ : ∀ {c : Client} {Cs : List Compiler}, Session 0 c Cs → (∀ x ∈ c.world.entries, x.toVal.Exact) → ∀ ω,
      ∃ P, QdriftProduct H 1.234 1000 c.world ω P ∧ SamePhase P (Q fun j => ω (c.world.rng.upos + j)))
    (t : Rng.Tape) : ∃ orders r', reshuffle 20 [0, 1, 2] (Rng.start t) = (.ok orders, r') ∧
      ((hamiltonianTwoQubits 0 (fresh t)).1 = .ok () ↔ Good4 (steps4 orders) (Q r'.rest.1)) := by
  obtain ⟨g1, g2⟩ := hH.total
  obtain ⟨U₀, e0, hU₀, hUp₀, -⟩ := C29_evolution (by positivity) g1 g2 0 ""
  obtain ⟨U, e3, hU, hUp, -⟩ := C29_evolution (by positivity) g1 g2 1.234 ""
  obtain ⟨one, i1, i2, i3⟩ := identity_is 2
  have m0 : Mirror (fresh t) [] ⟨[], []⟩ := .start _
  -- the Trotter sequence
  obtain ⟨s, w, es, orders, k1, k2, k3, k4⟩ := trotter_random_gates m0.rel.2.wf m0.rel.2.exact (by norm_num) hH 1.234
    (N := 20) (by norm_num)
  have hp : SamePhase (circuit 2 es) (steps4 orders) := by
    have h2 := circuit_trotter k4
    have e : orders.map (trotterMatrix xyyTerms (1.234 / ((20 : ℤ) : ℝ))) = orders.map step4 := by
      refine List.map_congr_left fun o _ => ?_
      unfold step4
      push_cast
      rfl
    rwa [e] at h2
  obtain ⟨c1, b1, b2, b3⟩ := returned_mirror m0 (T := .trotter H 1.234 20 true) trivial ⟨2, _, by norm_num, hH⟩ k1 k2.view
  -- the QDRIFT sequence
  obtain ⟨P, ⟨s1, w1, q1, j1, j2, j3, j4⟩, hP⟩ := hQ b2.rel.1 b2.rel.2.exact c1.world.rng.unif
  have j1' : H.getQdriftSequence 0 1.234 1000 c1.world = (.ok s1, w1) := j1
  obtain ⟨s2, w2, es', drawn, f1, f2, f3, -, -, f6⟩ := C49_qdrift_gates b2.rel.1 b2.rel.2.exact (by norm_num) hH 1.234 1000 rfl
  rw [j1'] at f1; cases f1
  obtain ⟨q', a1, a2, a3⟩ := f2.product
  rw [j2] at a1; cases a1
  have hes : circuit 2 es' = P := a3.2.2.symm.trans j4.2.2
  have hlen : es'.length = 1000 := by
    rw [← f6.length_eq, f3]; rfl
  obtain ⟨c2, d1, d2, -⟩ := returned_mirror b2 (T := .qdrift H 1.234 1000) trivial ⟨2, _, by norm_num, hH⟩ j1' f2.view
  obtain ⟨c3, n1, n2, -⟩ := length_mirror d2 (s := 1) rfl hlen
  refine ⟨orders, w.rng, k3, ?_⟩
  have hQe : SamePhase (circuit 2 es') (Q w.rng.rest.1) := by
    rw [hes]
    have e : w.rng.rest.1 = fun j => c1.world.rng.unif (c1.world.rng.upos + j) := by rw [b3]; rfl
    rw [e]
    exact hP
  have hid : (do U₀.closeTo 0 (← Unitary.identity 0 H.dimension) none) = (.ok true : Except PyErr Bool) := by
    rw [hd, i1, ok_bind, Unitary.closeTo_none_eq hU₀ i2, i3]
    have : overlap (U₀.matrix.toMatrix (2 ^ 2)) 1 = 1 := by
      rw [overlap_congr hUp₀ (SamePhase.refl 1), evolution_zero]
      exact overlap_self (by positivity) (one_mem _)
    rw [this]
    norm_num
  unfold hamiltonianTwoQubits
  rw [passes_lift h1, passes_lift (show H.getTimeEvolutionOperator 0 0 = .ok U₀ from e0)]
  have hdim : U₀.getDimension = H.dimension := by rw [hd]; exact hU₀.2.1
  rw [PyM.bind_of_ok (show PyM.assert (U₀.getDimension = H.dimension) (fresh t) = (.ok (), fresh t) by
    unfold PyM.assert; rw [assertE_of hdim]; rfl)]
  rw [passes_lift (a := ()) (by rw [hid, assertIs_ok])]
  rw [passes_lift (show H.getTimeEvolutionOperator 0 1.234 = .ok U from e3), PyM.bind_of_ok b1]
  dsimp only [List.length_nil]
  rw [PyM.bind_of_ok d1]
  dsimp only [List.length_append, List.length_cons, List.length_nil, List.nil_append]
  rw [PyM.bind_of_ok n1]
  obtain ⟨p, hpe⟩ : ∃ p : Plain, p = ⟨[], [⟨2 ^ 2, false, es, none⟩, ⟨2 ^ 2, false, es', none⟩]⟩ := ⟨_, rfl⟩
  have q1 := assertCloseTo_checks (p := p) (s := 0) (n := 2) (by rw [hpe]; rfl) rfl hU (some 0.95)
  have q2 := assertCloseTo_checks (p := p) (s := 1) (n := 2) (by rw [hpe]; rfl) rfl hU (some 0.95)
  have q3 := product_exact (p := p) (s := 0) (n := 2) (by rw [hpe]; rfl) rfl
  have q4 := product_exact (p := p) (s := 1) (n := 2) (by rw [hpe]; rfl) rfl
  have near : ∀ {u u' : Unitary} {A B : Matrix (Fin (2 ^ 2)) (Fin (2 ^ 2)) ℂ}, u.Exact (2 ^ 2) → u.matrix.toMatrix (2 ^ 2) = A →
      u'.Exact (2 ^ 2) → u'.matrix.toMatrix (2 ^ 2) = B → Checks (Rel · p) (PyM.lift (assertIs false (u.closeTo 0 u' none)))
        (¬ |1 - overlap A B| ≤ 1 / 100000000) (Rel · p) := by
    rintro u u' A B hu rfl hu' rfl
    refine lift_checks_false ?_
    rw [Unitary.closeTo_none_eq hu hu']
    norm_num
  have key := q1.bind fun _ => q2.bind fun _ => q3.decides fun u hu => (near hU rfl hu.1 hu.2).bind fun _ => q4.decides fun u' hu' =>
    (near hU rfl hu'.1 hu'.2).bind fun _ => q3.decides fun u hu => q4.decides fun u' hu' => (near hu.1 hu.2 hu'.1 hu'.2).decides
  refine (key c3 (hpe ▸ n2.rel.2)).trans ?_
  have hT : target4 ∈ unitaryGroup (Fin (2 ^ 2)) ℂ := evolution_unitary g2 _
  have w1 : overlap (U.matrix.toMatrix (2 ^ 2)) (circuit 2 es) = overlap target4 (steps4 orders) := overlap_congr hUp hp
  have w2 : overlap (U.matrix.toMatrix (2 ^ 2)) (circuit 2 es') = overlap target4 (Q w.rng.rest.1) := overlap_congr hUp hQe
  have w3 : overlap (circuit 2 es) (circuit 2 es') = overlap (steps4 orders) (Q w.rng.rest.1) := overlap_congr hp hQe
  have v1 := overlap_le_one hT (steps4_unitary orders)
  have v2 := overlap_le_one hT (hQu w.rng.rest.1)
  have v3 := overlap_le_one (steps4_unitary orders) (hQu w.rng.rest.1)
  dsimp only
  rw [w1, w2, w3, abs_of_nonneg (by linarith), abs_of_nonneg (by linarith), abs_of_nonneg (by linarith)]
  simp only [Metropolis.GoodEnough, Good4]
  norm_num

end Tests

end Stoq
