import Verif.Proofs.Qdrift
import Verif.Proofs.Probability
import Verif.Props.TrotterLimit
import Verif.Props.TimeEvolution

/-!
# C71: QDRIFT sequences reproduce the time evolution on average

The mean, over the random draws of `get_qdrift_sequence`, of every observable after the sequence converges to the same
observable after the ideal time evolution, with an explicit error of order `1 / N`.
-/

namespace Stoq

open World Matrix MeasureTheory
open scoped Matrix.Norms.L2Operator

/-- The world with other real random numbers to come. -/
def World.withReals (w : World) (ω : ℕ → Set.Ico (0 : ℝ) 1) : World := { w with rng := { w.rng with unif := ω } }

theorem World.WF.withReals {τ : Arith} {w : World} (h : w.WF τ) (ω : ℕ → Set.Ico (0 : ℝ) 1) : (w.withReals ω).WF τ :=
  ⟨h.entries, h.seqs⟩

theorem SamePhase.conj_eq {d : ℕ} {A B : Matrix (Fin d) (Fin d) ℂ} (h : SamePhase A B) (O : Matrix (Fin d) (Fin d) ℂ) :
    Aᴴ * O * A = Bᴴ * O * B := by
  obtain ⟨c, hc, rfl⟩ := h
  have : star c * c = 1 := by
    rw [Complex.star_def, ← Complex.normSq_eq_conj_mul_self, Complex.normSq_eq_norm_sq, hc]; norm_num
  rw [conjTranspose_smul, Matrix.smul_mul, Matrix.smul_mul, Matrix.mul_smul, smul_smul, this, one_smul]

variable {n : ℕ} {Ms : List (Matrix (Fin (2 ^ n)) (Fin (2 ^ n)) ℂ)} {H : Hamiltonian}

/-- The sequence of `N` gates that the code makes with the real random numbers `ω` has the product `P`. -/
def QdriftProduct (H : Hamiltonian) (t : ℝ) (N : ℤ) (w : World) (ω : ℕ → Set.Ico (0 : ℝ) 1)
    (P : Matrix (Fin (2 ^ n)) (Fin (2 ^ n)) ℂ) : Prop :=
  ∃ s w' p, H.getQdriftSequence 0 t N (w.withReals ω) = (.ok s, w') ∧ (Seq.product 0 s w').1 = .ok p ∧
    p.Exact (2 ^ n) ∧ p.Holds P

theorem evolution_step_eq (hH : H.Of Ms) (t : ℝ) {N : ℕ} {lam : ℝ} (hlam : lam = (Ms.map maxAbsEigenvalue).sum) :
    ∑ i : Fin Ms.length, (maxAbsEigenvalue Ms[i] / lam) • ((Complex.I * ((lam * t / N : ℝ) : ℂ)) • normalised Ms[i]) =
      (Complex.I * ((t / N : ℝ) : ℂ)) • Ms.sum := by
  have h := (C49_qdrift_mean hH t (N := N) hlam).2.2
  have e : ((N : ℤ) : ℝ) = (N : ℝ) := by norm_cast
  rw [e] at h
  rw [mul_smul, ← h, List.smul_sum, List.map_map, ← Fin.sum_univ_fun_getElem]
  refine Finset.sum_congr rfl fun i _ => ?_
  simp only [Function.comp]
  rw [smul_comm Complex.I, mul_smul]
  exact (Complex.coe_smul _ _).symm

/-- The variance of the Hamiltonian of one QDRIFT gate: `λ Σ M²/λ_M - (Σ M)²`, where `λ_M` is the largest absolute
eigenvalue of the term `M` and `λ` is their sum. -/
noncomputable def qdriftVariance (Ms : List (Matrix (Fin (2 ^ n)) (Fin (2 ^ n)) ℂ)) : Matrix (Fin (2 ^ n)) (Fin (2 ^ n)) ℂ :=
  (Ms.map maxAbsEigenvalue).sum • (Ms.map fun M => (1 / maxAbsEigenvalue M) • M ^ 2).sum - Ms.sum ^ 2

/-- The gates of the sequence: which ones they are and how they are chosen. -/
theorem qdrift_choices (hn : 1 ≤ n) (hH : H.Of Ms) (t : ℝ) {N : ℕ} (hN : 1 ≤ N) {L : ℝ}
    (hL : L = |t| * (Ms.map maxAbsEigenvalue).sum) :
    ∃ (p : Fin Ms.length → ℝ) (shot : Set.Ico (0 : ℝ) 1 → Fin Ms.length)
      (x : Fin Ms.length → Matrix (Fin (2 ^ n)) (Fin (2 ^ n)) ℂ),
      (∀ i, p i = maxAbsEigenvalue Ms[i] / (Ms.map maxAbsEigenvalue).sum) ∧
      (∀ i, NormedSpace.exp (x i) = evolution (normalised Ms[i]) ((Ms.map maxAbsEigenvalue).sum * t / N)) ∧
      Measurable shot ∧ (∀ a : Fin Ms.length → ℝ, ∫ u, a (shot u) ∂uniformUnit = ∑ i, p i * a i) ∧ (∀ i, 0 ≤ p i) ∧
      ∑ i, p i = 1 ∧ (∀ i, (x i)ᴴ = -x i) ∧ (∀ i, NormedSpace.exp (x i) ∈ unitaryGroup (Fin (2 ^ n)) ℂ) ∧
      (∀ i, ‖x i‖ ≤ L / N) ∧ NormedSpace.exp (∑ i, p i • x i) = evolution Ms.sum (t / N) ∧
      ∑ i, p i • x i ^ 2 - (∑ i, p i • x i) ^ 2 = -((t / N) ^ 2) • qdriftVariance Ms ∧
      ∀ {c : Client} {Cs : List Compiler}, Session 0 c Cs → (∀ x ∈ c.world.entries, x.toVal.Exact) → ∀ ω,
        ∃ P, QdriftProduct H t N c.world ω P ∧ SamePhase P
          ((List.range N).map fun j => NormedSpace.exp (x (shot (ω (c.world.rng.upos + j))))).reverse.prod := by
  obtain ⟨lam, hlam⟩ : ∃ lam, lam = (Ms.map maxAbsEigenvalue).sum := ⟨_, rfl⟩
  rw [← hlam] at hL
  obtain ⟨g1, g2⟩ := hH.total
  have hNpos : (0 : ℝ) < N := by exact_mod_cast hN
  have hNe : ((N : ℤ) : ℝ) = (N : ℝ) := by norm_cast
  have hpos : 0 < 2 ^ n := by positivity
  obtain ⟨m1, m2, -⟩ := C49_qdrift_mean hH t (N := N) hlam
  set pl : List ℝ := Ms.map fun M => maxAbsEigenvalue M / lam with hpl
  have hv : Rng.ValidP Ms.length pl := by
    have := hH.validP
    rwa [hH.probCoefficients, hH.length, ← hlam] at this
  have hlt : ∀ u : Set.Ico (0 : ℝ) 1, Rng.searchsortedRight ((Rng.cumsum pl).map (· / pl.sum)) u < Ms.length :=
    fun u => (Rng.search_spec hv u rfl).1
  set shot : Set.Ico (0 : ℝ) 1 → Fin Ms.length := fun u => ⟨_, hlt u⟩ with hshotdef
  have hshot : ∀ u : Set.Ico (0 : ℝ) 1, ChosenBy pl u (shot u) := fun u => (Rng.chosenBy_iff hv u).mpr rfl
  set p : Fin Ms.length → ℝ := fun i => maxAbsEigenvalue Ms[i] / lam with hp
  have hmean : ∀ a : Fin Ms.length → ℝ, ∫ u, a (shot u) ∂uniformUnit = ∑ i, p i * a i := by
    intro a
    rw [(uniformUnit_draw hv hshot a).2]
    refine Finset.sum_congr rfl fun i _ => ?_
    rw [m2, div_one]
    simp [hpl, hp]
  have hp0 : ∀ i, 0 ≤ p i := fun i => (m1 _ (List.getElem_mem i.2)).le
  have hp1 : ∑ i, p i = 1 := by
    have := hmean fun _ => 1
    simpa using this.symm
  have hherm : ∀ i : Fin Ms.length, (normalised Ms[i]).IsHermitian := fun i => by
    unfold normalised
    refine Matrix.IsHermitian.ext fun a b => ?_
    have h1 : Ms[i].IsHermitian := (hH.herm _ (List.getElem_mem i.2)).1
    rw [Matrix.smul_apply, Matrix.smul_apply, smul_eq_mul, smul_eq_mul, star_mul', h1.apply]
    congr 1
    exact Complex.conj_ofReal _
  set ts : ℝ := lam * t / N with hts
  set x : Fin Ms.length → Matrix (Fin (2 ^ n)) (Fin (2 ^ n)) ℂ := fun i => (Complex.I * (ts : ℂ)) • normalised Ms[i] with hx
  have hxe : ∀ i, NormedSpace.exp (x i) = evolution (normalised Ms[i]) ts := fun i => rfl
  have hxu : ∀ i, NormedSpace.exp (x i) ∈ unitaryGroup (Fin (2 ^ n)) ℂ := fun i => by
    rw [hxe]; exact evolution_unitary (hherm i) ts
  have hsum : ∑ i, p i • x i = (Complex.I * ((t / N : ℝ) : ℂ)) • Ms.sum := evolution_step_eq hH t hlam
  have hVe : NormedSpace.exp (∑ i, p i • x i) = evolution Ms.sum (t / N) := by rw [hsum]; rfl
  have hxct : ∀ i, (x i)ᴴ = -x i := fun i => by
    rw [hx]
    simp only
    rw [conjTranspose_smul, hherm i, ← neg_smul]
    congr 1
    rw [star_mul', Complex.star_def, Complex.conj_I, Complex.conj_ofReal, neg_mul]
  have hlam0 : 0 < lam := hlam ▸ hH.lambda_pos
  have hr : ∀ i, ‖x i‖ ≤ L / N := fun i => by
    have hM : Ms[i].IsHermitian ∧ 0 < maxAbsEigenvalue Ms[i] := hH.herm _ (List.getElem_mem i.2)
    have e : ‖normalised Ms[i]‖ = 1 := by
      unfold normalised
      rw [norm_smul, Complex.norm_real, Real.norm_of_nonneg (by have := hM.2; positivity),
        ← maxAbsEigenvalue_eq hpos hM.1]
      exact one_div_mul_cancel hM.2.ne'
    rw [hx]
    simp only
    rw [norm_smul, e, mul_one, norm_mul, Complex.norm_I, one_mul, Complex.norm_real, Real.norm_eq_abs, hts, abs_div,
      abs_mul, abs_of_pos hlam0, abs_of_pos hNpos, hL, mul_comm]
  have hvar : ∑ i, p i • x i ^ 2 - (∑ i, p i • x i) ^ 2 = -((t / N) ^ 2) • qdriftVariance Ms := by
    have e1 : ∑ i, p i • x i ^ 2 = -((t / N) ^ 2) • lam • (Ms.map fun M => (1 / maxAbsEigenvalue M) • M ^ 2).sum := by
      rw [List.smul_sum, List.smul_sum, List.map_map, List.map_map, ← Fin.sum_univ_fun_getElem]
      refine Finset.sum_congr rfl fun i _ => ?_
      have hM : 0 < maxAbsEigenvalue Ms[i] := (hH.herm _ (List.getElem_mem i.2)).2
      simp only [hx, hp, Function.comp, normalised]
      rw [smul_pow, smul_pow, mul_pow, Complex.I_sq, smul_smul, smul_smul, smul_smul, ← Complex.ofReal_pow, ← Complex.ofReal_pow,
        neg_one_mul, ← Complex.ofReal_neg, ← Complex.ofReal_mul, Complex.coe_smul, smul_smul]
      congr 1
      change maxAbsEigenvalue Ms[i] / lam * (-ts ^ 2 * (1 / maxAbsEigenvalue Ms[i]) ^ 2) = _ * (1 / maxAbsEigenvalue Ms[i])
      rw [hts]
      field_simp
    rw [e1, hsum, smul_pow, mul_pow, Complex.I_sq, ← Complex.ofReal_pow, neg_one_mul, ← Complex.ofReal_neg, Complex.coe_smul,
      qdriftVariance, ← hlam, smul_sub]
  -- the sequences made by the code
  refine ⟨p, shot, x, fun i => by rw [← hlam], fun i => by rw [← hlam]; exact hxe i, (uniformUnit_draw hv hshot 0).1, hmean, hp0, hp1, hxct, hxu, hr, hVe, hvar, fun {c Cs} hs hex ω => ?_⟩
  obtain ⟨s, w', es, drawn, h1, h2, h3, h4, -, h5⟩ :=
    qdrift_gates (hs.ok.1.wf.withReals ω) hex hn hH t N hlam
  obtain ⟨q, k1, k2, k3⟩ := h2.product
  refine ⟨_, ⟨s, w', q, h1, k1, k2, k3⟩, ?_⟩
  have hd : drawn = (List.range N).map fun j => (shot (ω (c.world.rng.upos + j))).val := by
    refine List.ext_getElem? fun j => ?_
    rw [List.getElem?_map]
    by_cases hj : j < N
    · have hj' : j < drawn.length := by rw [h3]; exact hj
      rw [List.getElem?_eq_getElem hj', List.getElem?_range hj, Option.map_some]
      congr 1
      have := h4 j _ (List.getElem?_eq_getElem hj')
      exact ((Rng.chosenBy_iff hv _).mp this).symm
    · rw [List.getElem?_eq_none (by rw [h3]; simp; omega), List.getElem?_eq_none (by simp; omega)]
      rfl
  have := circuit_evolves (n := n) (es := es) (ps := drawn.map fun i => (normalised (Ms.getD i 0), ts)) (by
    rw [List.forall₂_map_right_iff]
    refine h5.flip.imp ?_
    rintro e i ⟨M, e1, e2⟩
    rw [hNe] at e2
    exact ⟨_, by rw [List.getD_eq_getElem?_getD, e1]; exact e2⟩)
  rw [List.map_map, hd, List.map_map] at this
  refine cast (congrArg (fun l => SamePhase (circuit n es) (List.prod (List.reverse l))) ?_) this
  refine List.map_congr_left fun j _ => ?_
  simp only [Function.comp]
  rw [hxe, List.getD_eq_getElem?_getD, List.getElem?_eq_getElem (shot _).2]
  rfl

/-- The same without the probabilities and the gates. -/
theorem qdrift_draws (hn : 1 ≤ n) (hH : H.Of Ms) (t : ℝ) {N : ℕ} (hN : 1 ≤ N) {L : ℝ}
    (hL : L = |t| * (Ms.map maxAbsEigenvalue).sum) :
    ∃ (p : Fin Ms.length → ℝ) (shot : Set.Ico (0 : ℝ) 1 → Fin Ms.length)
      (x : Fin Ms.length → Matrix (Fin (2 ^ n)) (Fin (2 ^ n)) ℂ),
      Measurable shot ∧ (∀ a : Fin Ms.length → ℝ, ∫ u, a (shot u) ∂uniformUnit = ∑ i, p i * a i) ∧ (∀ i, 0 ≤ p i) ∧
      ∑ i, p i = 1 ∧ (∀ i, (x i)ᴴ = -x i) ∧ (∀ i, NormedSpace.exp (x i) ∈ unitaryGroup (Fin (2 ^ n)) ℂ) ∧
      (∀ i, ‖x i‖ ≤ L / N) ∧ NormedSpace.exp (∑ i, p i • x i) = evolution Ms.sum (t / N) ∧
      ∑ i, p i • x i ^ 2 - (∑ i, p i • x i) ^ 2 = -((t / N) ^ 2) • qdriftVariance Ms ∧
      ∀ {c : Client} {Cs : List Compiler}, Session 0 c Cs → (∀ x ∈ c.world.entries, x.toVal.Exact) → ∀ ω,
        ∃ P, QdriftProduct H t N c.world ω P ∧ SamePhase P
          ((List.range N).map fun j => NormedSpace.exp (x (shot (ω (c.world.rng.upos + j))))).reverse.prod := by
  obtain ⟨p, shot, x, -, -, h⟩ := qdrift_choices hn hH t hN hL
  exact ⟨p, shot, x, h⟩

/-- C71: for every Hamiltonian, time, number of repetitions and observable, the mean of the observable after the random
sequence differs from the observable after the time evolution by at most `4 L² / N * exp (L / N)` times its norm, where
`L` is the time multiplied by the sum of the largest absolute eigenvalues of the terms. -/
theorem C71_qdrift_bound {c : Client} {Cs : List Compiler} (hs : Session 0 c Cs)
    (hex : ∀ x ∈ c.world.entries, x.toVal.Exact) (hn : 1 ≤ n) (hH : H.Of Ms) (t : ℝ) {N : ℕ} (hN : 1 ≤ N) {L : ℝ}
    (hL : L = |t| * (Ms.map maxAbsEigenvalue).sum) :
    ∃ (P : (ℕ → Set.Ico (0 : ℝ) 1) → Matrix (Fin (2 ^ n)) (Fin (2 ^ n)) ℂ) (U : Unitary),
      (∀ ω, QdriftProduct H t N c.world ω (P ω)) ∧ H.getTimeEvolutionOperator 0 t = .ok U ∧
      ∀ O : Matrix (Fin (2 ^ n)) (Fin (2 ^ n)) ℂ, Integrable (fun ω => (P ω)ᴴ * O * P ω) uniformTape ∧
        ‖∫ ω, (P ω)ᴴ * O * P ω ∂uniformTape -
          (U.matrix.toMatrix (2 ^ n))ᴴ * O * U.matrix.toMatrix (2 ^ n)‖ ≤ 4 * L ^ 2 / N * Real.exp (L / N) * ‖O‖ := by
  obtain ⟨p, shot, x, hm, hmean, hp0, hp1, hxct, hxu, hr, hVe, -, hcode⟩ := qdrift_draws hn hH t hN hL
  obtain ⟨g1, g2⟩ := hH.total
  obtain ⟨U, g3, g4, g5, -⟩ := C29_evolution (by positivity) g1 g2 t ""
  have hNpos : (0 : ℝ) < N := by exact_mod_cast hN
  have hpos : 0 < 2 ^ n := by positivity
  have hVu : NormedSpace.exp (∑ i, p i • x i) ∈ unitaryGroup (Fin (2 ^ n)) ℂ := by
    rw [hVe]; exact evolution_unitary g2 _
  choose P hP1 hP2 using hcode hs hex
  have hP2 : ∀ ω O, (P ω)ᴴ * O * P ω =
      pulled (fun i => NormedSpace.exp (x i)) O N fun j => shot (ω (c.world.rng.upos + j)) := fun ω O => by
    rw [pulled_eq]
    exact SamePhase.conj_eq (hP2 ω) O
  refine ⟨P, U, hP1, g3, fun O => ?_⟩
  obtain ⟨i1, i2⟩ := integral_pulled (U := fun i => NormedSpace.exp (x i)) (p := p) hxu
    hm hmean O N c.world.rng.upos
  simp only [hP2]
  refine ⟨i1, ?_⟩
  rw [i2, SamePhase.conj_eq g5 O]
  have hb := norm_iterate_sub_le (p := p) hxu hp0 hp1 hVu (ε := 4 * (L / N) ^ 2 * Real.exp (L / N))
    (fun O => norm_meanPull_exp_sub_le hpos hp0 hp1 hxct hxu hVu hr O) N O
  rw [hVe, evolution_pow, mul_div_cancel₀ _ hNpos.ne'] at hb
  refine hb.trans (le_of_eq ?_)
  field_simp

/-- C71: the mean of an observable in the state reached from `ψ` by the random sequence converges to its value in the
state reached by the time evolution, uniformly in the state of the session: with `N` repetitions the error is at most
`4 L² / N * exp (L / N)` times the norms. -/
theorem C71_qdrift_expectation {c : Client} {Cs : List Compiler} (hs : Session 0 c Cs)
    (hex : ∀ x ∈ c.world.entries, x.toVal.Exact) (hn : 1 ≤ n) (hH : H.Of Ms) (t : ℝ) {N : ℕ} (hN : 1 ≤ N) {L : ℝ}
    (hL : L = |t| * (Ms.map maxAbsEigenvalue).sum) :
    ∃ (P : (ℕ → Set.Ico (0 : ℝ) 1) → Matrix (Fin (2 ^ n)) (Fin (2 ^ n)) ℂ) (U : Unitary),
      (∀ ω, QdriftProduct H t N c.world ω (P ω)) ∧ H.getTimeEvolutionOperator 0 t = .ok U ∧
      ∀ (O : Matrix (Fin (2 ^ n)) (Fin (2 ^ n)) ℂ) (ψ : EuclideanSpace ℂ (Fin (2 ^ n))), ‖ψ‖ = 1 →
        ‖∫ ω, star ψ.ofLp ⬝ᵥ ((P ω)ᴴ * O * P ω) *ᵥ ψ.ofLp ∂uniformTape -
          star ψ.ofLp ⬝ᵥ ((U.matrix.toMatrix (2 ^ n))ᴴ * O * U.matrix.toMatrix (2 ^ n)) *ᵥ ψ.ofLp‖ ≤
          4 * L ^ 2 / N * Real.exp (L / N) * ‖O‖ := by
  obtain ⟨P, U, h1, h2, h3⟩ := C71_qdrift_bound hs hex hn hH t hN hL
  refine ⟨P, U, h1, h2, fun O ψ hψ => ?_⟩
  obtain ⟨h4, h5⟩ := h3 O
  let ℓ : Matrix (Fin (2 ^ n)) (Fin (2 ^ n)) ℂ →ₗ[ℂ] ℂ :=
    { toFun := fun A => star ψ.ofLp ⬝ᵥ A *ᵥ ψ.ofLp
      map_add' := fun A B => by rw [Matrix.add_mulVec, dotProduct_add]
      map_smul' := fun a A => by rw [Matrix.smul_mulVec, dotProduct_smul]; rfl }
  have hbound : ∀ A, ‖ℓ A‖ ≤ ‖A‖ := by
    intro A
    have k1 : ℓ A = inner ℂ ψ (WithLp.toLp 2 (A *ᵥ ψ.ofLp)) := by
      rw [EuclideanSpace.inner_eq_star_dotProduct]
      exact dotProduct_comm (star ψ.ofLp) (A *ᵥ ψ.ofLp)
    rw [k1]
    refine (norm_inner_le_norm _ _).trans ?_
    have k2 := Matrix.l2_opNorm_mulVec A ψ
    rw [hψ, mul_one] at k2
    rw [hψ, one_mul]
    exact k2
  let Λ : Matrix (Fin (2 ^ n)) (Fin (2 ^ n)) ℂ →L[ℂ] ℂ := ℓ.mkContinuous 1 fun A => by rw [one_mul]; exact hbound A
  have e := Λ.integral_comp_comm h4
  have e' : ∫ ω, star ψ.ofLp ⬝ᵥ ((P ω)ᴴ * O * P ω) *ᵥ ψ.ofLp ∂uniformTape =
      ℓ (∫ ω, (P ω)ᴴ * O * P ω ∂uniformTape) := e
  rw [e']
  refine le_trans ?_ ((hbound _).trans h5)
  rw [map_sub]
  exact le_rfl

/-- C71: whatever accuracy is wanted, all large enough numbers of repetitions give it, for every observable of norm at
most one at once. -/
theorem C71_qdrift_limit {c : Client} {Cs : List Compiler} (hs : Session 0 c Cs)
    (hex : ∀ x ∈ c.world.entries, x.toVal.Exact) (hn : 1 ≤ n) (hH : H.Of Ms) (t : ℝ) {ε : ℝ} (hε : 0 < ε) :
    ∃ N₀ : ℕ, ∀ N : ℕ, N₀ ≤ N →
      ∃ (P : (ℕ → Set.Ico (0 : ℝ) 1) → Matrix (Fin (2 ^ n)) (Fin (2 ^ n)) ℂ) (U : Unitary),
        (∀ ω, QdriftProduct H t N c.world ω (P ω)) ∧ H.getTimeEvolutionOperator 0 t = .ok U ∧
        ∀ O : Matrix (Fin (2 ^ n)) (Fin (2 ^ n)) ℂ, ‖O‖ ≤ 1 →
          ‖∫ ω, (P ω)ᴴ * O * P ω ∂uniformTape -
            (U.matrix.toMatrix (2 ^ n))ᴴ * O * U.matrix.toMatrix (2 ^ n)‖ < ε := by
  obtain ⟨L, hL⟩ : ∃ L, L = |t| * (Ms.map maxAbsEigenvalue).sum := ⟨_, rfl⟩
  have hL0 : 0 ≤ L := hL ▸ mul_nonneg (abs_nonneg _) hH.lambda_pos.le
  obtain ⟨N₀, hN₀⟩ := exists_nat_gt (4 * L ^ 2 * Real.exp L / ε)
  refine ⟨N₀ + 1, fun N hN => ?_⟩
  have hN1 : 1 ≤ N := by omega
  have hNpos : (0 : ℝ) < N := by exact_mod_cast hN1
  obtain ⟨P, U, h1, h2, h3⟩ := C71_qdrift_bound hs hex hn hH t hN1 hL
  refine ⟨P, U, h1, h2, fun O hO => (h3 O).2.trans_lt ?_⟩
  have k1 : L / N ≤ L := div_le_self hL0 (by exact_mod_cast hN1)
  have k2 : 4 * L ^ 2 * Real.exp L / ε < N := hN₀.trans (by exact_mod_cast (by omega : N₀ < N))
  calc 4 * L ^ 2 / N * Real.exp (L / N) * ‖O‖ ≤ 4 * L ^ 2 / N * Real.exp L * 1 := by gcongr
    _ = 4 * L ^ 2 * Real.exp L / N := by ring
    _ < ε := by
      rw [div_lt_iff₀ hNpos]
      rw [div_lt_iff₀ hε] at k2
      linarith

/-- The hypotheses are met at the start of a session by the Hamiltonian with the terms `X` and `Z`. -/
example (rng : Rng) (t : ℝ) : ∃ H, ∃ N₀ : ℕ, ∀ N : ℕ, N₀ ≤ N →
    ∃ (P : (ℕ → Set.Ico (0 : ℝ) 1) → Matrix (Fin (2 ^ 1)) (Fin (2 ^ 1)) ℂ) (U : Unitary),
      (∀ ω, QdriftProduct H t N (Client.start rng).world ω (P ω)) ∧ H.getTimeEvolutionOperator 0 t = .ok U ∧
      ∀ O : Matrix (Fin (2 ^ 1)) (Fin (2 ^ 1)) ℂ, ‖O‖ ≤ 1 →
        ‖∫ ω, (P ω)ᴴ * O * P ω ∂uniformTape -
          (U.matrix.toMatrix (2 ^ 1))ᴴ * O * U.matrix.toMatrix (2 ^ 1)‖ < 1 / 100 := by
  obtain ⟨H, hH⟩ := example_xz
  obtain ⟨N₀, h⟩ := C71_qdrift_limit (Session.start rng) (fun x hx => absurd hx List.not_mem_nil) le_rfl hH t
    (by norm_num : (0 : ℝ) < 1 / 100)
  exact ⟨H, N₀, h⟩

end Stoq
