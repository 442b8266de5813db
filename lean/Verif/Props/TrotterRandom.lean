import Verif.Proofs.TrotterMean
import Verif.Props.TrotterLimit
import Verif.Props.Law

/-!
# Properties C87: Trotter sequences with random order (hamiltonian.py: get_trotter_sequence)

With the terms in random order in each step the mean distance from the time evolution is of third order in the number of
steps, one order better than for a fixed order.
-/

namespace Stoq

open Matrix MeasureTheory
open scoped Matrix.Norms.L2Operator

variable {n : ℕ} {Ms : List (Matrix (Fin (2 ^ n)) (Fin (2 ^ n)) ℂ)} {H : Hamiltonian}

/-- The distance between the product of a randomised Trotter sequence and the time evolution operator, both as computed by
the code. -/
def TrotterDistance (H : Hamiltonian) (t : ℝ) (N : ℤ) (w : World) (x : ℝ) : Prop :=
  ∃ s w' p U, H.getTrotterSequence 0 t N true w = (.ok s, w') ∧ (Seq.product 0 s w').1 = .ok p ∧
    H.getTimeEvolutionOperator 0 t = .ok U ∧ p.distanceFrom 0 U = .ok x

theorem trotterMatrix_unitary' (hM : ∀ M ∈ Ms, M.IsHermitian) (ts : ℝ) (o : List ℕ) :
    trotterMatrix Ms ts o ∈ unitaryGroup (Fin (2 ^ n)) ℂ := by
  refine list_prod_mem ?_
  intro A hA
  rw [List.mem_reverse] at hA
  obtain ⟨i, hi, rfl⟩ := List.mem_map.mp hA
  refine evolution_unitary ?_ ts
  rw [List.getD_eq_getElem?_getD]
  cases h : Ms[i]? with
  | none => exact isHermitian_zero
  | some M => exact hM M (List.mem_of_getElem? h)

/-- What a randomised Trotter sequence consists of. -/
theorem trotter_random_gates {w : World} (hw : w.WF 0) (hex : ∀ x ∈ w.entries, x.toVal.Exact) (hn : 1 ≤ n) (hH : H.Of Ms)
    (t : ℝ) {N : ℤ} (hN : 1 ≤ N) :
    ∃ s w' es, ∃ orders : List (List ℕ), H.getTrotterSequence 0 t N true w = (.ok s, w') ∧ Builds n es w s w' ∧
      reshuffle N.toNat (List.range Ms.length) w.rng = (.ok orders, w'.rng) ∧
      List.Forall₂ (fun i e => ∃ M, Ms[i]? = some M ∧ Evolves n (toString i) M (t / N) e) orders.flatten es := by
  have hp := trotter_post H t N true hw
  rw [Wp] at hp
  have hp := hp.2.2 (by omega)
  obtain ⟨vs, r, hf⟩ := Hamiltonian.trotterVals_eq (τ := 0) (ts := t / N) (randomize := true) (k := N.toNat)
    (is := List.range H.terms.length) (H := H) (fun i hi => by
      rw [List.mem_range, hH.length] at hi
      obtain ⟨v, -, h, -⟩ := hH.trotterEntry hn (t / N) hi
      exact ⟨v, h⟩) w.rng
  obtain ⟨orders, g1, g4⟩ := Hamiltonian.trotterVals_reshuffle hf
  have g5 := g4.imp fun i v h => hH.trotterEvolves hn h
  rw [hH.terms.1] at hp
  obtain ⟨s, w', k1, k2, k3⟩ := builds_of_post hp hex (fun v hv => evolveEntry_good hn hH (fun _ _ _ => hH.trotterP) hv)
    hf (fun v hv => by
      obtain ⟨i, hi⟩ := List.mem_iff_getElem?.mp hv
      rcases forall₂_getElem? g5 i with ⟨-, h⟩ | ⟨a, b, -, h, M, -, hE⟩
      · rw [h] at hi; cases hi
      · rw [h] at hi; cases hi
        exact hE.good.1)
  rw [hH.length] at g1
  exact ⟨s, w', vs, orders, k1, k2, by rw [k3]; exact g1, g5⟩

/-- The product of a randomised Trotter sequence, and its mean overlap with the time evolution, from bounds on one step:
`μ` for the mean of an order and its reverse, `σ` for the overlap of a single order. -/
theorem trotter_random_mean (hH : H.Of Ms) (t : ℝ) {N : ℕ} (hN : 1 ≤ N) {B : ℕ} (hB : Ms.length ≤ B) {μ σ : ℝ}
    (hμ : ∀ o : List ℕ, o.Perm (List.range Ms.length) → ‖(1 / 2 : ℝ) • (trotterMatrix Ms (t / N) o +
      trotterMatrix Ms (t / N) o.reverse) - evolution Ms.sum (t / N)‖ ≤ μ)
    (hσ : ∀ o : List ℕ, o.Perm (List.range Ms.length) →
      1 - ((evolution Ms.sum (t / N))ᴴ * trotterMatrix Ms (t / N) o).trace.re / (2 ^ n : ℕ) ≤ σ) :
    ∃ F : Rng.Tape → List (List ℕ),
      (∀ r : Rng, ∃ r', reshuffle N (List.range Ms.length) r = (.ok (F r.rest), r')) ∧
      (∀ ω, (F ω).length = N ∧ ∀ o ∈ F ω, o.Perm (List.range Ms.length)) ∧
      Measurable (fun ω => overlap (evolution Ms.sum t) ((F ω).map (trotterMatrix Ms (t / N))).reverse.prod) ∧
      ∫ ω, (1 - overlap (evolution Ms.sum t) ((F ω).map (trotterMatrix Ms (t / N))).reverse.prod) ∂Rng.tapes B ≤
        N * σ + N * (N - 1) / 2 * μ ^ 2 := by
  obtain ⟨g1, g2⟩ := hH.total
  have hM : ∀ M ∈ Ms, M.IsHermitian := fun M h => (hH.herm M h).1
  have hNpos : (0 : ℝ) < N := by exact_mod_cast hN
  have hd : 0 < 2 ^ n := by positivity
  have hT := trotterMatrix_unitary' hM (t / N)
  obtain ⟨F, f1, f2, f3, f4⟩ := reshuffle_mean hT (l := List.range Ms.length) List.nodup_range (B := B)
    (by rw [List.length_range]; exact hB) N _ (.refl _)
  have hFu : ∀ ω, ((F ω).map (trotterMatrix Ms (t / N))).reverse.prod ∈ unitaryGroup (Fin (2 ^ n)) ℂ := fun ω =>
    list_prod_mem fun A hA => by
      rw [List.mem_reverse] at hA
      obtain ⟨o, -, rfl⟩ := List.mem_map.mp hA
      exact hT o
  obtain ⟨k1, k2, k3⟩ := mean_overlap_of (B := B) hFu f3 (evolution_unitary g2 t)
  refine ⟨F, f1, f2, k1, ?_⟩
  have hpow := power_overlap hd (evolution_unitary g2 (t / N)) (orderMean_norm_le hT _)
    (orderMean_reverse hT List.nodup_range hμ) (orderMean_overlap hT List.nodup_range hσ) N
  rw [f4] at k3
  rw [evolution_pow, mul_div_cancel₀ _ hNpos.ne'] at hpow
  rw [integral_sub (integrable_const 1) k2]
  simp only [integral_const, probReal_univ, smul_eq_mul, mul_one]
  linarith

/-- The bounds on one step that hold for all Hamiltonians. -/
theorem trotterMatrix_reverse_bound (hM : ∀ M ∈ Ms, M.IsHermitian) (ts : ℝ) {o : List ℕ}
    (ho : o.Perm (List.range Ms.length)) {x : ℝ} (hx : x = |ts| * (Ms.map maxAbsEigenvalue).sum) :
    ‖(1 / 2 : ℝ) • (trotterMatrix Ms ts o + trotterMatrix Ms ts o.reverse) - evolution Ms.sum ts‖ ≤
      x ^ 3 / 3 * Real.exp x := by
  have hne : Nonempty (Fin (2 ^ n)) := ⟨⟨0, by positivity⟩⟩
  have hp := map_getD_perm (d := 0) ho
  have e1 : ((o.map fun i => ((Complex.I * ts) • Ms.getD i 0)).reverse.map NormedSpace.exp).prod =
      trotterMatrix Ms ts o := by
    rw [List.map_reverse, List.map_map]; rfl
  have e1' : ((o.map fun i => ((Complex.I * ts) • Ms.getD i 0)).map NormedSpace.exp).prod =
      trotterMatrix Ms ts o.reverse := by
    rw [trotterMatrix, List.map_reverse, List.reverse_reverse, List.map_map]; rfl
  have e2 : (o.map fun i => ((Complex.I * ts) • Ms.getD i 0)).sum = (Complex.I * ts) • Ms.sum := by
    rw [← hp.sum_eq, List.smul_sum, List.map_map]; rfl
  have e3 : ((o.map fun i => ((Complex.I * ts) • Ms.getD i 0)).map norm).sum = x := by
    rw [List.map_map]
    have : (norm ∘ fun i => ((Complex.I * ts) • Ms.getD i 0)) = fun i => |ts| * ‖Ms.getD i 0‖ := by
      funext i
      simp [norm_smul]
    rw [this, hx, List.sum_map_mul_left]
    congr 1
    have h2 : (o.map fun i => ‖Ms.getD i 0‖) = ((o.map fun i => Ms.getD i 0).map norm) := by rw [List.map_map]; rfl
    rw [h2, (hp.map norm).sum_eq]
    congr 1
    exact List.map_congr_left fun M hMs => (maxAbsEigenvalue_eq (by positivity) (hM M hMs)).symm
  have h := norm_prod_exp_reverse_le _ e3
  rw [e1, e1', e2, add_comm] at h
  exact h

/-- C87: with the terms in random order, the distance between the product of the Trotter sequence and the time evolution
operator is a measurable function `D` of the random numbers, with values in `[0, 1]`, the same for all histories of the
session.  With `L` the time multiplied by the sum of the largest absolute eigenvalues of the terms, its mean is at most
`(L⁴ / (2 N³) + L⁶ / (18 N⁴)) * exp (2 L / N)`; the probability that it is at least `ε` is at most its mean divided by `ε`. -/
theorem C87_random_trotter (hn : 1 ≤ n) (hH : H.Of Ms) (t : ℝ) {N : ℕ} (hN : 1 ≤ N) {L : ℝ}
    (hL : L = |t| * (Ms.map maxAbsEigenvalue).sum) {B : ℕ} (hB : Ms.length ≤ B) :
    ∃ D : Rng.Tape → ℝ, Measurable D ∧ (∀ ω, 0 ≤ D ω ∧ D ω ≤ 1) ∧
      (∀ {c : Client} {Cs : List Compiler}, Session 0 c Cs → (∀ x ∈ c.world.entries, x.toVal.Exact) →
        ∀ ω, TrotterDistance H t N (c.world.reseed ω) (D ω)) ∧
      ∫ ω, D ω ∂Rng.tapes B ≤ (L ^ 4 / (2 * N ^ 3) + L ^ 6 / (18 * N ^ 4)) * Real.exp (2 * (L / N)) ∧
      ∀ ε, 0 < ε → Rng.tapes B {ω | ε ≤ D ω} ≤ ENNReal.ofReal ((∫ ω, D ω ∂Rng.tapes B) / ε) := by
  obtain ⟨g1, g2⟩ := hH.total
  obtain ⟨U, g3, g4, g5, -⟩ := C29_evolution (by positivity) g1 g2 t ""
  have hM : ∀ M ∈ Ms, M.IsHermitian := fun M h => (hH.herm M h).1
  have hNpos : (0 : ℝ) < N := by exact_mod_cast hN
  have hd : 0 < 2 ^ n := by positivity
  have hx : L / N = |t / N| * (Ms.map maxAbsEigenvalue).sum := by
    rw [abs_div, abs_of_pos hNpos, hL]; ring
  have hT := trotterMatrix_unitary' hM (t / N)
  obtain ⟨F, f1, f2, f3, f4⟩ := trotter_random_mean hH t hN hB
    (μ := (L / N) ^ 3 / 3 * Real.exp (L / N)) (σ := ((L / N) ^ 2 * Real.exp (L / N)) ^ 2 / 2)
    (fun o ho => trotterMatrix_reverse_bound hM _ ho hx) fun o ho => by
      refine (re_overlap_ge hd (evolution_unitary g2 (t / N)) (hT o)).trans ?_
      have := trotterMatrix_bound hM _ ho hx
      rw [norm_sub_rev]
      gcongr
  have hFu : ∀ ω, ((F ω).map (trotterMatrix Ms (t / N))).reverse.prod ∈ unitaryGroup (Fin (2 ^ n)) ℂ := fun ω =>
    list_prod_mem fun A hA => by
      rw [List.mem_reverse] at hA
      obtain ⟨o, -, rfl⟩ := List.mem_map.mp hA
      exact hT o
  set D : Rng.Tape → ℝ := fun ω => 1 - overlap (evolution Ms.sum t) ((F ω).map (trotterMatrix Ms (t / N))).reverse.prod with hD
  have hD0 : ∀ ω, 0 ≤ D ω := fun ω => by
    have := overlap_le_one (evolution_unitary g2 t) (hFu ω)
    simp only [hD]; linarith
  have hD1 : ∀ ω, D ω ≤ 1 := fun ω => by
    have := overlap_nonneg (evolution Ms.sum t) ((F ω).map (trotterMatrix Ms (t / N))).reverse.prod
    simp only [hD]; linarith
  have hDm : Measurable D := measurable_const.sub f3
  have hDi : Integrable D (Rng.tapes B) := Integrable.of_bound hDm.aestronglyMeasurable 1
    (Filter.Eventually.of_forall fun ω => by rw [Real.norm_of_nonneg (hD0 ω)]; exact hD1 ω)
  refine ⟨D, hDm, fun ω => ⟨hD0 ω, hD1 ω⟩, fun {c Cs} hs hex ω => ?_, f4.trans ?_, fun ε hε => ?_⟩
  · obtain ⟨s, w', es, orders, h1, h2, h3, h5⟩ := trotter_random_gates (hs.ok.1.wf.reseed ω) hex hn hH t
      (N := N) (by exact_mod_cast hN)
    obtain ⟨p, k1, k2, k3⟩ := h2.product
    refine ⟨s, w', p, U, h1, k1, g3, ?_⟩
    rw [Unitary.distanceFrom_eq k2 g4]
    congr 1
    obtain ⟨r', hr⟩ := f1 (Rng.start ω)
    rw [Rng.rest_start] at hr
    have h3' : reshuffle N (List.range Ms.length) (Rng.start ω) = (.ok orders, w'.rng) := h3
    rw [hr] at h3'
    obtain ⟨e1, -⟩ := Prod.mk.inj h3'
    obtain rfl := Except.ok.inj e1
    simp only [hD]
    rw [overlap_comm, k3.2.2]
    congr 1
    exact overlap_congr g5 (circuit_trotter h5)
  · have hN1 : (1 : ℝ) ≤ N := by exact_mod_cast hN
    have e : Real.exp (2 * (L / N)) = Real.exp (L / N) ^ 2 := by rw [two_mul, Real.exp_add, pow_two]
    rw [e]
    have e2 : (N : ℝ) * (((L / N) ^ 2 * Real.exp (L / N)) ^ 2 / 2) = L ^ 4 / (2 * N ^ 3) * Real.exp (L / N) ^ 2 := by
      field_simp
    have e3 : (N : ℝ) * (N - 1) / 2 * ((L / N) ^ 3 / 3 * Real.exp (L / N)) ^ 2 ≤
        L ^ 6 / (18 * N ^ 4) * Real.exp (L / N) ^ 2 := by
      have : L ^ 6 / (18 * N ^ 4) * Real.exp (L / N) ^ 2 = (N : ℝ) * N / 2 * ((L / N) ^ 3 / 3 * Real.exp (L / N)) ^ 2 := by
        field_simp
        ring
      rw [this]
      gcongr
      linarith
    rw [e2, add_mul]
    linarith
  · have h := mul_meas_ge_le_integral_of_nonneg (Filter.Eventually.of_forall hD0) hDi ε
    refine (ENNReal.le_ofReal_iff_toReal_le (measure_ne_top _ _) ?_).mpr ?_
    · exact div_nonneg (integral_nonneg hD0) hε.le
    · rw [le_div_iff₀ hε, mul_comm]
      exact h

/-- C87: whatever accuracy and probability are wanted, for all large enough `N` the distance multiplied by `N²` is that
small with that probability (the bound of C48 for all orders is only of the order `1 / N²`). -/
theorem C87_random_trotter_limit (hn : 1 ≤ n) (hH : H.Of Ms) (t : ℝ) {B : ℕ} (hB : Ms.length ≤ B) {ε η : ℝ} (hε : 0 < ε)
    (hη : 0 < η) : ∃ N₀ : ℕ, ∀ N : ℕ, N₀ ≤ N → ∀ {c : Client} {Cs : List Compiler}, Session 0 c Cs →
      (∀ x ∈ c.world.entries, x.toVal.Exact) →
      MeasurableSet {ω | ∃ x, TrotterDistance H t N (c.world.reseed ω) x ∧ x < ε / N ^ 2} ∧
      1 - ENNReal.ofReal η ≤ Rng.tapes B {ω | ∃ x, TrotterDistance H t N (c.world.reseed ω) x ∧ x < ε / N ^ 2} := by
  obtain ⟨L, hL⟩ : ∃ L, L = |t| * (Ms.map maxAbsEigenvalue).sum := ⟨_, rfl⟩
  have hL0 : 0 ≤ L := hL ▸ mul_nonneg (abs_nonneg _) hH.lambda_pos.le
  obtain ⟨N₀, hN₀⟩ := exists_nat_gt ((L ^ 4 + L ^ 6) * Real.exp (2 * L) / (ε * η))
  refine ⟨N₀ + 1, fun N hN {c Cs} hs hex => ?_⟩
  have hN1 : 1 ≤ N := by omega
  have hNr : (1 : ℝ) ≤ N := by exact_mod_cast hN1
  have hNpos : (0 : ℝ) < N := by linarith
  obtain ⟨D, h1, h2, h3, h0, h4⟩ := C87_random_trotter hn hH t hN1 hL hB
  have hset : {ω | ∃ x, TrotterDistance H t N (c.world.reseed ω) x ∧ x < ε / N ^ 2} = {ω | ε / N ^ 2 ≤ D ω}ᶜ := by
    ext ω
    simp only [Set.mem_compl_iff, Set.mem_ofPred_eq, not_le]
    constructor
    · rintro ⟨x, ⟨s, w', p, U, e1, e2, e3, e4⟩, hx⟩
      obtain ⟨s', w'', p', U', f1, f2, f3, f4⟩ := h3 hs hex ω
      rw [e1] at f1; cases f1
      rw [e2] at f2; cases f2
      rw [e3] at f3; cases f3
      rw [e4] at f4; cases f4
      exact hx
    · intro hx
      exact ⟨_, h3 hs hex ω, hx⟩
  have hm : MeasurableSet {ω | ε / N ^ 2 ≤ D ω} := measurableSet_le measurable_const h1
  rw [hset]
  refine ⟨hm.compl, ?_⟩
  rw [prob_compl_eq_one_sub hm]
  refine tsub_le_tsub_left ((h4 _ (by positivity)).trans (ENNReal.ofReal_le_ofReal ?_)) 1
  have k1 : L / N ≤ L := div_le_self hL0 hNr
  have k2 : (L ^ 4 + L ^ 6) * Real.exp (2 * L) / (ε * η) < N := hN₀.trans (by exact_mod_cast (by omega : N₀ < N))
  rw [div_lt_iff₀ (by positivity)] at k2
  rw [div_le_iff₀ (by positivity)]
  refine h0.trans ?_
  calc (L ^ 4 / (2 * N ^ 3) + L ^ 6 / (18 * N ^ 4)) * Real.exp (2 * (L / N))
      ≤ (L ^ 4 / N ^ 3 + L ^ 6 / N ^ 3) * Real.exp (2 * L) := by
        gcongr
        · nlinarith [pow_pos hNpos 3]
        · nlinarith [pow_pos hNpos 3]
    _ = (L ^ 4 + L ^ 6) * Real.exp (2 * L) / N ^ 3 := by ring
    _ ≤ η * (ε / N ^ 2) := by
      rw [div_le_iff₀ (by positivity)]
      calc (L ^ 4 + L ^ 6) * Real.exp (2 * L) ≤ N * (ε * η) := k2.le
        _ = _ := by field_simp

/-- At the start of a session, for the Hamiltonian with the terms `X` and `Z`, the distance with random orders is less than
`1 / (100 N²)` with probability at least 99/100 if there are enough steps. -/
example (rng : Rng) (t : ℝ) : ∃ H, ∃ N₀ : ℕ, ∀ N : ℕ, N₀ ≤ N →
    1 - ENNReal.ofReal 0.01 ≤ Rng.tapes 2 {ω | ∃ x, TrotterDistance H t N ((Client.start rng).world.reseed ω) x ∧
      x < 0.01 / N ^ 2} := by
  obtain ⟨H, hH⟩ := example_xz
  obtain ⟨N₀, h⟩ := C87_random_trotter_limit le_rfl hH t (B := 2) (by simp) (by norm_num : (0 : ℝ) < 0.01)
    (by norm_num : (0 : ℝ) < 0.01)
  exact ⟨H, N₀, fun N hN => (h N hN (Session.start rng) (fun x hx => absurd hx List.not_mem_nil)).2⟩

end Stoq
