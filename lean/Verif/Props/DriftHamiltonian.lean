import Verif.Proofs.DriftHamiltonian
import Verif.Props.DriftRav

/-!
# Property C64: the sequences of a Hamiltonian with the clean-up of small matrix entries and rounding

For clean-up thresholds and rounding errors that are small enough.  A gate that evolves all `n` qubits is stored
with an error of at most `3 * 2 ^ n * δ`.
-/

namespace Stoq

open World Matrix

variable {n : ℕ} {Ms : List (Matrix (Fin (2 ^ n)) (Fin (2 ^ n)) ℂ)} {H : Hamiltonian} {τ : Arith} {δ : ℝ}

theorem Budget.tau_lim {ε : ℝ} {k : ℕ} (hb : Budget n τ δ ε (k + 1)) : 3 * 2 ^ n * δ ≤ driftLimit := by
  have := driftErr_add hb
  have h := driftErr_nonneg (n := n) (k := k) hb.t0 hb.eps
  linarith [hb.lim]

/-- The time evolution operator. -/
theorem C64_evolution (hτ : τ.Accurate (2 ^ n) δ) (hlim : 3 * 2 ^ n * δ ≤ driftLimit) (hH : H.Of Ms) {t : ℝ}
    (ht : |t| * (Ms.map maxAbsEigenvalue).sum ≤ 100) :
    NearGate (H.getTimeEvolutionOperator τ t) (evolution Ms.sum t) (3 * 2 ^ n * δ) "H" [("t", (t, false))] := by
  obtain ⟨g1, g2⟩ := hH.total
  rw [← cast_two_pow] at hlim ⊢
  exact C62_evolution (Nat.two_pow_pos n) hτ hlim g1 g2 (hH.reach ht le_rfl hH.norm_total) ""

/-! ## Ideal sequences -/

/-- The ideal sequence with `N ≥ 1` steps is `N` equal gates that evolve all qubits for the time `t / N`; its product
is the evolution for the time `t`, and the distance to the time evolution operator is measured as 0, up to the
accumulated error. -/
theorem C64_ideal {c : Client} {Cs : List Compiler} (hs : Session τ c Cs) (hn : 1 ≤ n) (hH : H.Of Ms) {t : ℝ}
    (ht : |t| * (Ms.map maxAbsEigenvalue).sum ≤ 100) {N : ℤ} (hN : 1 ≤ N) {ε : ℝ} (hε : ε = 3 * 2 ^ n * δ) (hb : Budget n τ δ ε (N.toNat + 1)) :
    ∃ s w' e p U x, H.getIdealSequence τ t N c.world = (.ok s, w') ∧ c.world.view s = none ∧
      w'.view s = some ⟨2 ^ n, false, List.replicate N.toNat e, none⟩ ∧ EvolvesNear n ε "" Ms.sum (t / N) e ∧
      w'.rng = c.world.rng ∧
      (Seq.product τ s w').1 = .ok p ∧ p.Near (evolution Ms.sum t) (driftErr n δ ε N.toNat) ∧
      H.getTimeEvolutionOperator τ t = .ok U ∧ p.distanceFrom τ U = .ok x ∧ |x| ≤ driftErr n δ ε (N.toNat + 2) := by
  have hlim := hb.tau_lim
  obtain ⟨h1, h2⟩ := hH.total
  obtain ⟨u, h3, h4, h5⟩ := EvolvesNear.of hn hb.tau hlim h1 h2 (hH.reach ht (abs_div_int_le t N) hH.norm_total) ""
  rw [← hε] at h5
  have hp := ideal_post H t N hs.ok.1.wf
  rw [Wp] at hp
  have hp := (hp.2.2 (by omega)).2 u h3
  rw [hH.terms.1] at hp
  rw [← hH.applyTo] at h4
  obtain ⟨s, w', g1, g2, g3⟩ := buildsNear_of_post hp hn (Hamiltonian.idealVals_eq h4 N.toNat c.world.rng)
    (hb.mono (Nat.le_succ _)) (ps := List.replicate N.toNat (Ms.sum, t / N)) (by simp)
    (fun p hp => by obtain ⟨-, rfl⟩ := List.mem_replicate.mp hp; exact h2) (by
      generalize N.toNat = k
      induction k with
      | zero => exact .nil
      | succ k ih => exact .cons ⟨_, h5⟩ ih)
  obtain ⟨p, k1, k2⟩ := g2.product
  have hN' : (N : ℝ) ≠ 0 := by exact_mod_cast (by omega : N ≠ 0)
  have hk : ((N.toNat : ℕ) : ℝ) = N := by exact_mod_cast Int.toNat_of_nonneg (by omega : 0 ≤ N)
  rw [List.map_replicate, List.reverse_replicate, List.prod_replicate, evolution_pow, hk, mul_div_cancel₀ _ hN'] at k2
  obtain ⟨U, u1, u2, -⟩ := C64_evolution hb.tau hlim hH ht
  have hV := evolution_unitary h2 t
  obtain ⟨x, x1, x2⟩ := distance_evolution_near hε.ge hb k2 u2 hV hV
  rw [(overlap_eq_one_iff (Nat.two_pow_pos n) hV hV).mpr (SamePhase.refl _), sub_self, sub_zero] at x2
  exact ⟨s, w', _, p, U, x, g1, g2.new, g2.view, h5, g3, k1, k2, u1, x1, x2⟩

/-! ## Trotter sequences -/

theorem Hamiltonian.Of.trotterEntry_near (hn : 1 ≤ n) (hτ : τ.Accurate (2 ^ n) δ) (hlim : 3 * 2 ^ n * δ ≤ driftLimit) (hH : H.Of Ms)
    {ts : ℝ} (hts : |ts| * (Ms.map maxAbsEigenvalue).sum ≤ 100) {i : ℕ} (hi : i < Ms.length) :
    ∃ v M, H.TrotterEntry τ ts i v ∧ Ms[i]? = some M ∧ EvolvesNear n (3 * 2 ^ n * δ) (toString i) M ts v := by
  rw [← hH.length] at hi
  have ht := List.getElem?_eq_getElem hi
  obtain ⟨M, h1, h2⟩ := hH.get ht
  obtain ⟨u, h3, h4, h5⟩ := EvolvesNear.of hn hτ hlim h2.is h2.herm
    (hH.reach hts le_rfl (hH.norm_term (List.mem_of_getElem? h1))) (toString i)
  exact ⟨_, M, ⟨_, u, ht, h3, by rw [hH.applyTo]; exact h4⟩, h1, h5⟩

theorem trotter_flatten (ts : ℝ) (orders : List (List ℕ)) :
    (orders.flatten.map fun i => evolution (Ms.getD i 0) ts).reverse.prod =
      (orders.map (trotterMatrix Ms ts)).reverse.prod := by
  induction orders with
  | nil => rfl
  | cons o os ih =>
    rw [List.flatten_cons, List.map_append, List.reverse_append, List.prod_append, ih, List.map_cons,
      List.reverse_cons, List.prod_append, List.prod_singleton]
    rfl

/-- A Trotter sequence with `N ≥ 1` steps visits, in each step, every term exactly once and evolves all qubits under it
for the time `t / N`; its product is the product of these evolutions up to the accumulated error.  The measured
distance to the time evolution operator is at most the bound of C48 plus the accumulated error. -/
theorem C64_trotter {c : Client} {Cs : List Compiler} (hs : Session τ c Cs) (hn : 1 ≤ n) (hH : H.Of Ms) {t : ℝ}
    (ht : |t| * (Ms.map maxAbsEigenvalue).sum ≤ 100) {N : ℤ} (hN : 1 ≤ N) (randomize : Bool) {ε L : ℝ} (hε : ε = 3 * 2 ^ n * δ) {k : ℕ} (hk : k = N.toNat * Ms.length)
    (hb : Budget n τ δ ε (k + 1)) (hL : L = |t| * (Ms.map maxAbsEigenvalue).sum) :
    ∃ s w' es p U x, ∃ orders : List (List ℕ), H.getTrotterSequence τ t N randomize c.world = (.ok s, w') ∧
      c.world.view s = none ∧ w'.view s = some ⟨2 ^ n, false, es, none⟩ ∧ orders.length = N.toNat ∧
      (∀ o ∈ orders, o.Perm (List.range Ms.length)) ∧
      (randomize = false → w'.rng = c.world.rng ∧ ∀ o ∈ orders, o = List.range Ms.length) ∧
      List.Forall₂ (fun i e => ∃ M, Ms[i]? = some M ∧ EvolvesNear n ε (toString i) M (t / N) e) orders.flatten es ∧
      (Seq.product τ s w').1 = .ok p ∧
      p.Near (orders.map (trotterMatrix Ms (t / N))).reverse.prod (driftErr n δ ε k) ∧
      H.getTimeEvolutionOperator τ t = .ok U ∧ p.distanceFrom τ U = .ok x ∧ -driftErr n δ ε (k + 2) ≤ x ∧
      x ≤ (L ^ 2 * Real.exp (L / N) / N) ^ 2 / 2 + driftErr n δ ε (k + 2) ∧
      ((∀ A ∈ Ms, ∀ B ∈ Ms, Commute A B) →
        p.Near (evolution Ms.sum t) (driftErr n δ ε k) ∧ |x| ≤ driftErr n δ ε (k + 2)) := by
  have hlim := hb.tau_lim
  have hp := trotter_post H t N randomize hs.ok.1.wf
  rw [Wp] at hp
  have hp := hp.2.2 (by omega)
  obtain ⟨vs, r, hf⟩ := Hamiltonian.trotterVals_eq (τ := τ) (ts := t / N) (randomize := randomize) (k := N.toNat)
    (is := List.range H.terms.length) (H := H) (fun i hi => by
      rw [List.mem_range, hH.length] at hi
      obtain ⟨v, -, h, -⟩ := hH.trotterEntry_near hn hb.tau hlim
        (hH.reach ht (abs_div_int_le t N) le_rfl) hi
      exact ⟨v, h⟩) c.world.rng
  obtain ⟨orders, g1, g2, g3, g4⟩ := Hamiltonian.trotterVals_ok hf
  have g5 : List.Forall₂ (fun i e => ∃ M, Ms[i]? = some M ∧ EvolvesNear n ε (toString i) M (t / N) e)
      orders.flatten vs := by
    refine g4.imp fun i v h => ?_
    have hi : i < Ms.length := by
      obtain ⟨a, b, h1, -⟩ := h
      rw [← hH.length]
      exact (List.getElem?_eq_some_iff.mp h1).1
    obtain ⟨v', M, h1, h2, h3⟩ := hH.trotterEntry_near hn hb.tau hlim
        (hH.reach ht (abs_div_int_le t N) le_rfl) hi
    rw [h.unique h1, hε]
    exact ⟨M, h2, h3⟩
  rw [hH.terms.1] at hp
  rw [hH.length] at g2 g3
  have hcount : orders.flatten.length = k := by
    have hrep : orders.map List.length = List.replicate orders.length Ms.length :=
      List.map_eq_replicate_iff.mpr fun o ho => by rw [(g2 o ho).length_eq, List.length_range]
    rw [List.length_flatten, hrep, List.sum_replicate, g1, smul_eq_mul, hk]
  obtain ⟨s, w', k1, k2, k3⟩ := buildsNear_of_post hp hn hf (hb.mono (Nat.le_succ _))
    (ps := orders.flatten.map fun i => (Ms.getD i 0, t / N)) (by rw [List.length_map, hcount])
    (fun p hp => by
      obtain ⟨i, hi, rfl⟩ := List.mem_map.mp hp
      obtain ⟨o, ho, hi⟩ := List.mem_flatten.mp hi
      have hi := List.mem_range.mp ((g2 o ho).mem_iff.mp hi)
      have : Ms.getD i 0 ∈ Ms := by
        rw [List.getD_eq_getElem?_getD, List.getElem?_eq_getElem hi]
        exact List.getElem_mem hi
      exact (hH.herm _ this).1) (by
      rw [List.forall₂_map_right_iff]
      refine g5.flip.imp ?_
      rintro e i ⟨M, h1, h2⟩
      exact ⟨_, by rw [List.getD_eq_getElem?_getD, h1]; exact h2⟩)
  obtain ⟨p, p1, p2⟩ := k2.product
  rw [List.map_map] at p2
  have p2 : p.Near (orders.map (trotterMatrix Ms (t / N))).reverse.prod (driftErr n δ ε k) := by
    rw [← trotter_flatten]; exact p2
  obtain ⟨U, u1, u2, -⟩ := C64_evolution hb.tau hlim hH ht
  obtain ⟨v1, v2⟩ := trotterProduct_bound hH t hN g1 g2 hL
  have hV := evolution_unitary hH.total.2 t
  obtain ⟨x, x1, x2⟩ := distance_evolution_near hε.ge hb p2 u2 v1 hV
  have x3 := abs_le.mp x2
  have hov := overlap_le_one v1 hV
  refine ⟨s, w', vs, p, U, x, orders, k1, k2.new, k2.view, g1, g2, fun h => ⟨k3.trans (g3 h).1, (g3 h).2⟩, g5, p1, p2,
    u1, x1, by linarith, by linarith, fun hcomm => ?_⟩
  have hN' : (N : ℝ) ≠ 0 := by exact_mod_cast (by omega : N ≠ 0)
  have hk' : ((N.toNat : ℕ) : ℝ) = N := by exact_mod_cast Int.toNat_of_nonneg (by omega : 0 ≤ N)
  have e : (orders.map (trotterMatrix Ms (t / N))).reverse.prod = evolution Ms.sum t := by
    have e : orders.map (trotterMatrix Ms (t / N)) = List.replicate N.toNat (evolution Ms.sum (t / N)) := by
      rw [List.eq_replicate_iff]
      refine ⟨by simp [g1], ?_⟩
      intro A hA
      obtain ⟨o, ho, rfl⟩ := List.mem_map.mp hA
      exact trotterMatrix_commute hcomm _ (g2 o ho)
    rw [e, List.reverse_replicate, List.prod_replicate, evolution_pow, hk', mul_div_cancel₀ _ hN']
  rw [e] at p2 x2
  rw [(overlap_eq_one_iff (Nat.two_pow_pos n) hV hV).mpr (SamePhase.refl _), sub_self, sub_zero] at x2
  exact ⟨p2, x2⟩

/-! ## QDRIFT sequences -/

theorem normalised_herm {d : ℕ} {M : Matrix (Fin d) (Fin d) ℂ} (hM : M.IsHermitian) : (normalised M).IsHermitian := by
  unfold normalised IsHermitian
  rw [conjTranspose_smul, hM.eq, Complex.star_def, Complex.conj_ofReal]

theorem Hamiltonian.Of.qdriftEntry_near (hn : 1 ≤ n) (hτ : τ.Accurate (2 ^ n) δ) (hlim : 3 * 2 ^ n * δ ≤ driftLimit) (hH : H.Of Ms)
    {ts : ℝ} (hts : |ts| ≤ 100) {i : ℕ} (hi : i < Ms.length) :
    ∃ v M, H.QdriftEntry τ ts i v ∧ Ms[i]? = some M ∧
      EvolvesNear n (3 * 2 ^ n * δ) (toString i ++ " λ/N") (normalised M) ts v := by
  rw [← hH.length] at hi
  have ht := List.getElem?_eq_getElem hi
  obtain ⟨M, h1, h2⟩ := hH.get ht
  obtain ⟨u, h3, h4, h5⟩ := EvolvesNear.of hn hτ hlim h2.normalised.1 h2.normalised.2
    (by rw [hH.norm_normalised (List.mem_of_getElem? h1), mul_one]; exact hts) (toString i ++ " λ/N")
  exact ⟨_, M, ⟨_, u, ht, h3, by rw [hH.applyTo]; exact h4⟩, h1, h5⟩

/-- A QDRIFT sequence with `N` repetitions has `N` gates; the `j`-th one evolves all qubits for the time `λ t / N`
under a normalised term which is drawn, by one uniform number of its own, with probability proportional to the largest
absolute eigenvalue of the term.  The product is the product of these evolutions up to the accumulated error. -/
theorem C64_qdrift {c : Client} {Cs : List Compiler} (hs : Session τ c Cs) (hn : 1 ≤ n) (hH : H.Of Ms) {t : ℝ}
    (ht : |t| * (Ms.map maxAbsEigenvalue).sum ≤ 100) (N : ℤ)
    {ε lam : ℝ} (hε : ε = 3 * 2 ^ n * δ) (hb : Budget n τ δ ε (N.toNat + 1)) (hlam : lam = (Ms.map maxAbsEigenvalue).sum) :
    ∃ s w' es p, ∃ drawn : List ℕ, H.getQdriftSequence τ t N c.world = (.ok s, w') ∧ c.world.view s = none ∧
      w'.view s = some ⟨2 ^ n, false, es, none⟩ ∧ drawn.length = N.toNat ∧
      (∀ (j i : ℕ), drawn[j]? = some i →
        ChosenBy (Ms.map fun M => maxAbsEigenvalue M / lam) (c.world.rng.unif (c.world.rng.upos + j)) i) ∧
      w'.rng = { c.world.rng with upos := c.world.rng.upos + N.toNat } ∧
      List.Forall₂ (fun i e => ∃ M, Ms[i]? = some M ∧
        EvolvesNear n ε (toString i ++ " λ/N") (normalised M) (lam * t / N) e) drawn es ∧
      (Seq.product τ s w').1 = .ok p ∧
      p.Near (drawn.map fun i => evolution (normalised (Ms.getD i 0)) (lam * t / N)).reverse.prod
        (driftErr n δ ε N.toNat) := by
  subst hlam
  have hlim := hb.tau_lim
  have hts : |(Ms.map maxAbsEigenvalue).sum * t / N| ≤ 100 := by
    refine (abs_div_int_le _ N).trans ?_
    rw [abs_mul, abs_of_pos hH.lambda_pos, mul_comm]; exact ht
  have hp := qdrift_post H t N hs.ok.1.wf
  rw [Wp, hH.terms.1, hH.sumCoefficients] at hp
  obtain ⟨vs, r, hf⟩ := Hamiltonian.qdriftVals_eq (τ := τ) (ts := (Ms.map maxAbsEigenvalue).sum * t / N) hH.validP
    (fun i hi => by
      rw [hH.length] at hi
      obtain ⟨v, -, h, -⟩ := hH.qdriftEntry_near hn hb.tau hlim hts hi
      exact ⟨v, h⟩) N.toNat c.world.rng
  obtain ⟨g1, idx, g2, g3, g4⟩ := Hamiltonian.qdriftVals_ok hf
  have g5 : List.Forall₂ (fun i e => ∃ M, Ms[i]? = some M ∧
      EvolvesNear n ε (toString i ++ " λ/N") (normalised M) ((Ms.map maxAbsEigenvalue).sum * t / N) e) idx vs := by
    refine g4.imp fun i v h => ?_
    obtain ⟨a, b, e1, e2, e3⟩ := h
    obtain ⟨v', M, h1, h2, h3⟩ := hH.qdriftEntry_near hn hb.tau hlim hts
      (i := i) (by rw [← hH.length]; exact (List.getElem?_eq_some_iff.mp e1).1)
    obtain ⟨a', b', e1', e2', e3'⟩ := h1
    rw [e1] at e1'; cases e1'
    rw [e2] at e2'; cases e2'
    rw [e3] at e3'; cases e3'
    rw [hε]
    exact ⟨M, h2, h3⟩
  obtain ⟨s, w', k1, k2, k3⟩ := buildsNear_of_post hp hn hf (hb.mono (Nat.le_succ _))
    (ps := idx.map fun i => (normalised (Ms.getD i 0), (Ms.map maxAbsEigenvalue).sum * t / N))
    (by rw [List.length_map, g2])
    (fun p hp => by
      obtain ⟨i, hi, rfl⟩ := List.mem_map.mp hp
      obtain ⟨j, hj⟩ := List.mem_iff_getElem?.mp hi
      rcases forall₂_getElem? g5 j with ⟨h, -⟩ | ⟨a, b, h, -, M, hM, -⟩
      · rw [h] at hj; cases hj
      · rw [h] at hj; cases hj
        rw [List.getD_eq_getElem?_getD, hM]
        exact normalised_herm (hH.herm M (List.mem_of_getElem? hM)).1) (by
      rw [List.forall₂_map_right_iff]
      refine g5.flip.imp ?_
      rintro e i ⟨M, h1, h2⟩
      exact ⟨_, by rw [List.getD_eq_getElem?_getD, h1]; exact h2⟩)
  obtain ⟨p, p1, p2⟩ := k2.product
  rw [List.map_map] at p2
  refine ⟨s, w', vs, p, idx, k1, k2.new, k2.view, g2, ?_, k3.trans g1, g5, p1, p2⟩
  rw [← hH.probCoefficients]
  exact g3

/-! ## At the code's threshold -/

theorem xz_lambda : (([!![0, 1; 1, 0], !![1, 0; 0, -1]] : List (Matrix (Fin (2 ^ 1)) (Fin (2 ^ 1)) ℂ)).map
    maxAbsEigenvalue).sum = 2 := by
  obtain ⟨H, hH⟩ := example_xz
  rw [hH.norm_map, List.map_cons, List.map_cons, List.map_nil, List.sum_cons, List.sum_cons, List.sum_nil,
    norm_unitary (by norm_num) (by
      rw [mem_unitaryGroup_iff]; ext i j
      fin_cases i <;> fin_cases j <;> simp [Matrix.mul_apply, Fin.sum_univ_two, star_eq_conjTranspose]),
    norm_unitary (by norm_num) (by
      rw [mem_unitaryGroup_iff]; ext i j
      fin_cases i <;> fin_cases j <;> simp [Matrix.mul_apply, Fin.sum_univ_two, star_eq_conjTranspose])]
  norm_num

/-- A Trotter sequence for Pauli X plus Pauli Z with 20 steps: its measured distance from the evolution is at most the
bound of C48 plus 5e-9. -/
example (rng : Rng) : ∃ H, Hamiltonian.Of (n := 1) [!![0, 1; 1, 0], !![1, 0; 0, -1]] H ∧ ∀ L, L =
    |2| * (([!![0, 1; 1, 0], !![1, 0; 0, -1]] : List (Matrix (Fin (2 ^ 1)) (Fin (2 ^ 1)) ℂ)).map maxAbsEigenvalue).sum →
    ∃ s w' p U x, H.getTrotterSequence (.exact codeTau) 2 20 true (Client.start rng).world = (.ok s, w') ∧
      (Seq.product (.exact codeTau) s w').1 = .ok p ∧ H.getTimeEvolutionOperator (.exact codeTau) 2 = .ok U ∧
      p.distanceFrom (.exact codeTau) U = .ok x ∧ x ≤ (L ^ 2 * Real.exp (L / 20) / 20) ^ 2 / 2 + 5e-9 := by
  obtain ⟨H, hH⟩ := example_xz
  refine ⟨H, hH, fun L hL => ?_⟩
  have hb : Budget 1 (.exact codeTau) codeTau 6e-12 (40 + 1) ∧ _ := C56_budget code_accurate
    (by unfold codeTau; norm_num) (by norm_num) (by unfold stepErr codeTau; norm_num)
  obtain ⟨s, w', es, p, U, x, o, h1, -, -, -, -, -, -, h2, -, h3, h4, -, h5, -⟩ := C64_trotter (τ := .exact codeTau) (δ := codeTau) (.start rng)
    le_rfl hH (t := 2) (by rw [xz_lambda]; norm_num) (N := 20) (by norm_num) true (ε := 6e-12) (by unfold codeTau; norm_num) (k := 40) rfl hb.1 hL
  refine ⟨s, w', p, U, x, h1, h2, h3, h4, h5.trans (add_le_add (le_of_eq (by norm_num)) ?_)⟩
  have := (C56_budget (n := 1) (k := 42) (t := codeTau) (ε := 6e-12) code_accurate
    (by unfold codeTau; norm_num) (by norm_num) (by unfold stepErr codeTau; norm_num)).2
  refine this.trans ?_
  unfold stepErr codeTau
  norm_num

/-- A QDRIFT sequence for the same terms with 40 repetitions. -/
example (rng : Rng) : ∃ H, Hamiltonian.Of (n := 1) [!![0, 1; 1, 0], !![1, 0; 0, -1]] H ∧ ∃ s w' es,
    H.getQdriftSequence (.exact codeTau) 2 40 (Client.start rng).world = (.ok s, w') ∧
      w'.view s = some ⟨2, false, es, none⟩ := by
  obtain ⟨H, hH⟩ := example_xz
  obtain ⟨s, w', es, p, d, h1, -, h2, -⟩ := C64_qdrift (τ := .exact codeTau) (δ := codeTau) (.start rng) le_rfl hH
    (t := 2) (by rw [xz_lambda]; norm_num) 40
    (ε := 6e-12) (by unfold codeTau; norm_num) (C56_budget (k := 40 + 1) code_accurate
    (by unfold codeTau; norm_num) (by norm_num) (by unfold stepErr codeTau; norm_num)).1 rfl
  exact ⟨H, hH, s, w', es, h1, h2⟩

/-- An ideal sequence for the same terms with 40 steps. -/
example (rng : Rng) : ∃ H, Hamiltonian.Of (n := 1) [!![0, 1; 1, 0], !![1, 0; 0, -1]] H ∧ ∃ s w' e,
    H.getIdealSequence (.exact codeTau) 2 40 (Client.start rng).world = (.ok s, w') ∧
      w'.view s = some ⟨2, false, List.replicate 40 e, none⟩ := by
  obtain ⟨H, hH⟩ := example_xz
  obtain ⟨s, w', e, p, U, x, h1, -, h2, -⟩ := C64_ideal (τ := .exact codeTau) (δ := codeTau) (.start rng) le_rfl hH
    (t := 2) (by rw [xz_lambda]; norm_num) (N := 40)
    (by norm_num) (ε := 6e-12) (by unfold codeTau; norm_num) (C56_budget (k := 40 + 1) code_accurate
    (by unfold codeTau; norm_num) (by norm_num) (by unfold stepErr codeTau; norm_num)).1
  exact ⟨H, hH, s, w', e, h1, h2⟩

end Stoq
