import Verif.Proofs.RepoHamiltonianTests

/-! # The tests of Hamiltonians that use random numbers: what decides -/

namespace Stoq

open Matrix Tests MeasureTheory

open scoped Matrix.Norms.L2Operator

namespace Tests

variable {p : Plain} {Cs : List Compiler}

/-! ## Asking for the product does not use random numbers -/

theorem product_rng {c : Client} (h : Rel c p) {s : ℕ} {v : SeqView} (hs : p.seqs[s]? = some v) :
    (c.step 0 (.product s)).2.world.rng = c.world.rng := by
  rcases forall₂_getElem? h.seqs s with ⟨h1, h2⟩ | ⟨r, v', h1, h2, hv⟩
  · rw [hs] at h2; cases h2
  obtain ⟨o, ho, -⟩ := view_eq_some.mp hv
  have hp := product_wp h.wf ho
  rw [Wp] at hp
  obtain ⟨o', hp⟩ := hp
  have hr := hp.step.rng
  simp only [Client.step, h1, Client.with_, Client.call]
  rcases hx : Seq.product 0 r c.world with ⟨_ | u, w'⟩
  · rw [hx] at hr; exact hr
  · rw [hx] at hr; exact hr

theorem closeTo_mirror {c : Client} (h : Mirror c Cs p) {s n : ℕ} {v : SeqView} (hs : p.seqs[s]? = some v) (hd : v.dimension = 2 ^ n)
    {u : Unitary} (hu : u.Exact (2 ^ n)) (threshold : Option ℝ) :
    ∃ c', Mirror c' Cs p ∧ c'.world.rng = c.world.rng ∧
      (Metropolis.GoodEnough threshold (1 - overlap (u.matrix.toMatrix (2 ^ n)) (circuit n v.entries)) →
        assertCloseTo 0 u s threshold c = (.ok (), c')) ∧
      (¬ Metropolis.GoodEnough threshold (1 - overlap (u.matrix.toMatrix (2 ^ n)) (circuit n v.entries)) →
        assertCloseTo 0 u s threshold c = (.error .assertion, c')) := by
  obtain ⟨c', hc', h1, h2⟩ := assertCloseTo_checks hs hd hu threshold c h.rel.2
  have hst : (assertCloseTo 0 u s threshold c).2 = (c.step 0 (.product s)).2 := by
    obtain ⟨q, c2, e, -, -⟩ := product_exact hs hd c h.rel.2
    have e2 : c2 = (c.step 0 (.product s)).2 := by
      unfold product perform at e
      rcases hx : c.step 0 (.product s) with ⟨_ | obs, c3⟩
      · rw [hx] at e; cases e
      · rw [hx] at e
        dsimp only at e
        split at e <;> cases e
        rfl
    unfold assertCloseTo
    rw [PyM.bind_of_ok e, PyM.lift_apply]
    exact e2
  have hp : (p.step (.product s)).2 = p := by
    simp only [Plain.step, hs, Plain.with_]
  have hm := Mirror.op (.product s) h trivial trivial
  rw [hp] at hm
  by_cases hb : Metropolis.GoodEnough threshold (1 - overlap (u.matrix.toMatrix (2 ^ n)) (circuit n v.entries))
  · have e := h1 hb
    rw [e] at hst
    exact ⟨_, hm, product_rng h.rel.2 hs, fun _ => by rw [e, ← hst], fun hn => absurd hb hn⟩
  · have e := h2 hb
    rw [e] at hst
    exact ⟨_, hm, product_rng h.rel.2 hs, fun hn => absurd hn hb, fun _ => by rw [e, ← hst]⟩

/-! ## test_stoq -/

/-- The call of the test succeeds, and the second one as well. -/
theorem pass_stoq (fmt : ℕ → ℝ → String) {H : Hamiltonian} (h1 : xyHamiltonian 2 (-3) = .ok H) (hd : H.dimension = 2)
    (hH : H.Of (xyTerms 2 (-3))) {t : Rng.Tape} {S : Set Rng.Tape}
    (ht : ∀ w : World, w.WF 0 → (∀ x ∈ w.entries, x.toVal.Exact) → w.rng.rest = t →
      StoqSucceeds (xyTerms 2 (-3)) 0.543 (some 0.9) (H.compileStoqSequence 0 0.543 (0.543 / 10) (some 0.9) false w) ∧
      (H.compileStoqSequence 0 0.543 (0.543 / 10) (some 0.9) false w).2.rng.rest ∈ S)
    (hS : ∀ t' ∈ S, ∀ w : World, w.WF 0 → (∀ x ∈ w.entries, x.toVal.Exact) → w.rng.rest = t' →
      StoqSucceeds (xyTerms 2 (-3)) 0.543 (some 0.9) (H.compileStoqSequence 0 0.543 (0.543 / 10) (some 0.9) true w)) :
    (stoq 0 fmt (fresh t)).1 = .ok () := by
  obtain ⟨g1, g2⟩ := hH.total
  obtain ⟨U, e3, hU, hUp, -⟩ := C29_evolution (by positivity) g1 g2 0.543 ""
  have hQ : ∀ b, (Task.stoq H 0.543 (0.543 / 10) (some 0.9) b).OnQubits := fun b => ⟨by norm_num, 1, _, le_rfl, hH⟩
  have hov : ∀ X, overlap (U.matrix.toMatrix (2 ^ 1)) X = overlap (evolution (xyTerms 2 (-3)).sum 0.543) X :=
    fun X => overlap_congr hUp (.refl _)
  have key : ∀ {c : Client} {p : Plain} {b : Bool}, Mirror c [] p →
      StoqSucceeds (xyTerms 2 (-3)) 0.543 (some 0.9) (H.compileStoqSequence 0 0.543 (0.543 / 10) (some 0.9) b c.world) →
      ∃ v c', returned 0 (.stoq H 0.543 (0.543 / 10) (some 0.9) b) c = (.ok p.seqs.length, c') ∧
        Mirror c' [] { p with seqs := p.seqs ++ [v] } ∧ v.dimension = 2 ^ 1 ∧
        Metropolis.GoodEnough (some 0.9) (1 - overlap (U.matrix.toMatrix (2 ^ 1)) (circuit 1 v.entries)) ∧
        c'.world.rng = (H.compileStoqSequence 0 0.543 (0.543 / 10) (some 0.9) b c.world).2.rng := by
    intro c p b hc hsu
    obtain ⟨gates, costs, ⟨R, k1, -, v, k2, rfl⟩, k3⟩ := hsu
    have hrun : (Task.stoq H 0.543 (0.543 / 10) (some 0.9) b).run 0 c.world =
        (.ok R.sequence, (H.compileStoqSequence 0 0.543 (0.543 / 10) (some 0.9) b c.world).2) :=
      PyM.bind_eq_ok_iff.mpr ⟨R, _, by rw [← k1], rfl⟩
    rcases returned_cases hc (T := .stoq H 0.543 (0.543 / 10) (some 0.9) b) trivial (hQ b) with
      ⟨e, w, c', f1, -⟩ | ⟨s, w, v', c', f1, f2, f3, f4⟩
    · rw [hrun] at f1; cases f1
    · rw [hrun] at f1; cases f1
      rw [k2] at f2; cases f2
      obtain ⟨-, ⟨es, undo, q1, -⟩, -⟩ := C51_stoq_shape (R := R) (w' := _) hc.rel.1 (show H.compileStoqSequence 0 0.543 (0.543 / 10) (some 0.9) b c.world = (.ok R, _) by rw [← k1])
      rw [k2] at q1; cases q1
      refine ⟨_, c', f3, f4, hd, ?_, ?_⟩
      · rw [hov]; exact k3
      · have ht : c.task 0 (.stoq H 0.543 (0.543 / 10) (some 0.9) b) = _ := (Client.call_eq (m := (Task.stoq H 0.543 (0.543 / 10) (some 0.9) b).run 0)).1 _ _ hrun
        have : c' = (c.task 0 (.stoq H 0.543 (0.543 / 10) (some 0.9) b)).2 := by
          unfold returned at f3
          rw [ht] at f3 ⊢
          exact ((Prod.mk.inj f3).2).symm
        rw [this, ht]
  have m0 : Mirror (fresh t) [] ⟨[], []⟩ := .start _
  obtain ⟨s1, s2⟩ := ht (fresh t).world m0.rel.2.wf m0.rel.2.exact (Rng.rest_start t)
  obtain ⟨v, c1, a1, a2, a3, a4, a5⟩ := key m0 s1
  obtain ⟨c2, b1, b2, b3, -⟩ := closeTo_mirror a2 (s := 0) (v := v) rfl a3 hU (some 0.9)
  obtain ⟨v', c3, d1, d2, d3, d4, -⟩ := key (b := true) b1 (hS _ (by rw [← a5, ← b2] at s2; exact s2) _ b1.rel.2.wf b1.rel.2.exact rfl)
  obtain ⟨c4, f1, -, f3, -⟩ := closeTo_mirror d2 (s := 1) (v := v') rfl d3 hU (some 0.9)
  obtain ⟨_, c5, g, -, -⟩ := assertQasm_exact (p := _) (s := 1) fmt (v := v') rfl c4 f1.rel.2
  unfold stoq
  rw [passes_lift h1, passes_lift (show H.getTimeEvolutionOperator 0 0.543 = .ok U from e3), PyM.bind_of_ok a1]
  dsimp only [List.length_nil]
  rw [PyM.bind_of_ok (b3 a4), PyM.bind_of_ok d1]
  change ((assertCloseTo 0 U 1 (some 0.9) >>= fun _ => assertText (Seq.getQasm 0 fmt) 1) c3).1 = _
  rw [PyM.bind_of_ok (f3 d4), g]

/-! ## test_hamiltonian_rav -/

theorem hamiltonianRav_iff (fmt : ℕ → ℝ → String) {H : Hamiltonian} (h1 : xyHamiltonian 2 (-3) = .ok H) (hd : H.dimension = 2)
    (hH : H.Of (xyTerms 2 (-3))) (fuel : ℕ) (t : Rng.Tape) :
    (hamiltonianRav 0 fmt fuel (fresh t)).1 = .ok () ↔
      RavSucceeds 1 (some 0.9) (H.compileRavSequence 0 0.543 (0.543 / 10) (some 0.9) true fuel (fresh t).world) := by
  obtain ⟨one, i1, i2, i3⟩ := identity_is 1
  unfold hamiltonianRav
  rw [passes_lift h1]
  rw [returned_start (T := .hamiltonianRav H 0.543 (0.543 / 10) (some 0.9) true fuel) trivial
    ⟨by norm_num, 1, _, le_rfl, hH⟩ rfl
    (b := fun v => Metropolis.GoodEnough (some 0.9) (1 - overlap 1 (circuit 1 v.entries))) t ?_]
  · unfold RavSucceeds ReturnsGates
    constructor
    · rintro ⟨R, v, e, hv, hb⟩
      exact ⟨v.entries, R.costByStep, ⟨R, e, rfl, v, hv, rfl⟩, hb⟩
    · rintro ⟨_, _, ⟨R, e, -, v, hv, rfl⟩, hb⟩
      exact ⟨R, v, e, hv, hb⟩
  · intro R w v e hv
    obtain ⟨-, pre, compiled, undo, ts, hv', -⟩ := C52_rav_shape (τ := 0) (c := fresh t) (.start _) e
    rw [hv] at hv'; cases hv'
    have := (assertClose_checks (p := ⟨[], [⟨H.dimension, false, pre ++ compiled, undo⟩]⟩) (s := 0) (n := 1) rfl hd
      (r := Unitary.identity 0 H.dimension) (by rw [hd]; exact i1) i2 (some 0.9)).bind (b' := True)
      fun _ => (assertQasm_exact (s := 0) fmt rfl).decides_true
    rw [i3] at this
    simpa using this

/-! ## test_qdrift -/

theorem pass_qdrift {H : Hamiltonian} (h1 : xyHamiltonian 10 (-1) = .ok H) (hd : H.dimension = 2)
    (hH : H.Of (xyTerms 10 (-1))) (t : Rng.Tape) {x : ℝ} (hx : QdriftDistance H 0.543 1000 (fresh t).world t.1 x)
    (hx1 : x ≤ 0.05) : (qdrift 0 (fresh t)).1 = .ok () := by
  obtain ⟨s, w', q, U, k1, k2, k3, k4⟩ := hx
  have k1' : H.getQdriftSequence 0 0.543 1000 (fresh t).world = (.ok s, w') := k1
  have hs : Session 0 (fresh t) [] := .start _
  have hex : ∀ x ∈ (fresh t).world.entries, x.toVal.Exact := by simp [fresh, Client.start]
  obtain ⟨-, es, drawn, hv, -, hlen, -⟩ := C49_qdrift_shape hs k1'
  obtain ⟨s', w2, es', drawn', f1, f2, -⟩ := C49_qdrift_gates hs hex le_rfl hH 0.543 1000 rfl
  rw [k1'] at f1; cases f1
  obtain ⟨q', q1, q2, q3⟩ := f2.product
  rw [k2] at q1; cases q1
  have hes : es' = es := by
    have := f2.view
    rw [hv] at this
    exact ((SeqView.mk.inj (Option.some.inj this)).2.2.1).symm
  subst hes
  have hU : U.Exact (2 ^ 1) := by
    obtain ⟨g1, g2⟩ := hH.total
    obtain ⟨U', j1, j2, -⟩ := C29_evolution (by positivity) g1 g2 0.543 ""
    rw [show UnitaryDefinitions.timeEvolution 0 H.totalMatrix 0.543 "" = H.getTimeEvolutionOperator 0 0.543 from rfl, k3] at j1
    cases j1
    exact j2
  unfold qdrift
  rw [passes_lift h1, passes_lift k3, returned_decides (Mirror.start _) (T := .qdrift H 0.543 1000) trivial ⟨1, _, le_rfl, hH⟩
    (b := fun _ => True) ?_]
  · exact ⟨s, w', _, k1', hv, trivial⟩
  · intro s' w2 v k1 k2
    rw [show (Task.qdrift H 0.543 1000).run 0 = H.getQdriftSequence 0 0.543 1000 from rfl] at k1
    rw [show (Client.start (Rng.start t)).world = (fresh t).world from rfl, k1'] at k1; cases k1
    rw [hv] at k2; cases k2
    refine (assertLength_exact (p := ⟨[], [⟨H.dimension, false, es', none⟩]⟩) (s := 0) rfl (by exact hlen)).decides fun _ _ => ?_
    have := (assertCloseTo_checks (p := ⟨[], [⟨H.dimension, false, es', none⟩]⟩) (s := 0) (n := 1) rfl hd hU (some 0.95)).decides
    refine fun c hc => (this c hc).trans (iff_of_true ?_ trivial)
    rw [Unitary.distanceFrom_eq q2 hU, q3.2.2, overlap_comm] at k4
    rw [Except.ok.inj k4]
    simp only [Metropolis.GoodEnough]
    linarith

/-- The variance of the Hamiltonian of the test. -/
theorem xy_variance {a b : ℝ} (ha : a ≠ 0) (hb : b ≠ 0) : ‖qdriftVariance (xyTerms a b)‖ = 2 * |a| * |b| := by
  have h1 := (X_scaled ha).2.2
  have h2 := (Y_scaled hb).2.2
  have hXX : Gate.X * Gate.X = 1 := Gate.X_sq
  have hYY : Gate.Y * Gate.Y = 1 := Gate.Y_sq
  have hXY : Gate.X * Gate.Y + Gate.Y * Gate.X = 0 := by
    ext i j
    fin_cases i <;> fin_cases j <;> simp [Gate.X, Gate.Y]
  have e : qdriftVariance (xyTerms a b) = (2 * |a| * |b|) • (1 : Matrix (Fin (2 ^ 1)) (Fin (2 ^ 1)) ℂ) := by
    unfold qdriftVariance
    rw [xy_strength ha hb]
    change (|a| + |b|) • ((1 / maxAbsEigenvalue ((a : ℂ) • Gate.X)) • ((a : ℂ) • Gate.X) ^ 2 +
      ((1 / maxAbsEigenvalue ((b : ℂ) • Gate.Y)) • ((b : ℂ) • Gate.Y) ^ 2 + 0)) - ((a : ℂ) • Gate.X + ((b : ℂ) • Gate.Y + 0)) ^ 2 =
      (2 * |a| * |b|) • (1 : Matrix (Fin 2) (Fin 2) ℂ)
    rw [h1, h2, add_zero, add_zero, Complex.coe_smul, Complex.coe_smul, smul_pow, smul_pow, pow_two Gate.X, pow_two Gate.Y, hXX, hYY, pow_two (a • Gate.X + b • Gate.Y), add_mul,
      mul_add, mul_add, smul_mul_smul_comm, smul_mul_smul_comm, smul_mul_smul_comm, smul_mul_smul_comm, hXX, hYY,
      show Gate.Y * Gate.X = -(Gate.X * Gate.Y) from eq_neg_of_add_eq_zero_right hXY, ← sq_abs a, ← sq_abs b, mul_comm b a]
    have ha' : |a| ≠ 0 := abs_ne_zero.mpr ha
    have hb' : |b| ≠ 0 := abs_ne_zero.mpr hb
    rw [smul_smul, smul_smul, smul_add, smul_smul, smul_smul, ← abs_mul_abs_self a, ← abs_mul_abs_self b]
    rw [show (|a| + |b|) * (1 / |a| * |a| ^ 2) = (|a| + |b|) * |a| by field_simp,
      show (|a| + |b|) * (1 / |b| * |b| ^ 2) = (|a| + |b|) * |b| by field_simp]
    module
  rw [e, norm_smul, norm_unitary (by norm_num) (one_mem _), mul_one, Real.norm_of_nonneg (by positivity)]

end Tests

end Stoq
