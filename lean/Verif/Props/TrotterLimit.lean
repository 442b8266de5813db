import Verif.Props.HamiltonianSequences
import Verif.Proofs.Trotter

/-!
# C48: convergence of Trotter sequences
-/

namespace Stoq

open World Matrix

open scoped Matrix.Norms.L2Operator

theorem maxAbsEigenvalue_eq {d : ℕ} (hd : 0 < d) {M : Matrix (Fin d) (Fin d) ℂ} (hM : M.IsHermitian) :
    maxAbsEigenvalue M = ‖M‖ := (norm_isGreatest hd hM).csSup_eq

variable {n : ℕ} {Ms : List (Matrix (Fin (2 ^ n)) (Fin (2 ^ n)) ℂ)} {H : Hamiltonian}

/-- The error of one step, in whatever order the terms are visited. -/
theorem trotterMatrix_bound (hM : ∀ M ∈ Ms, M.IsHermitian) (ts : ℝ) {o : List ℕ}
    (ho : o.Perm (List.range Ms.length)) {x : ℝ} (hx : x = |ts| * (Ms.map maxAbsEigenvalue).sum) :
    ‖trotterMatrix Ms ts o - evolution Ms.sum ts‖ ≤ x ^ 2 * Real.exp x := by
  have hne : Nonempty (Fin (2 ^ n)) := ⟨⟨0, by positivity⟩⟩
  have hp := map_getD_perm (d := 0) ho
  have h := norm_prod_exp_sub_exp_le (o.map fun i => ((Complex.I * ts) • Ms.getD i 0)).reverse
  have e1 : ((o.map fun i => ((Complex.I * ts) • Ms.getD i 0)).reverse.map NormedSpace.exp).prod =
      trotterMatrix Ms ts o := by
    rw [List.map_reverse, List.map_map]; rfl
  have e2 : (o.map fun i => ((Complex.I * ts) • Ms.getD i 0)).reverse.sum = (Complex.I * ts) • Ms.sum := by
    rw [(List.reverse_perm _).sum_eq, ← hp.sum_eq, List.smul_sum, List.map_map]; rfl
  have e3 : ((o.map fun i => ((Complex.I * ts) • Ms.getD i 0)).reverse.map norm).sum = x := by
    rw [List.map_reverse, (List.reverse_perm _).sum_eq, List.map_map]
    have : (norm ∘ fun i => ((Complex.I * ts) • Ms.getD i 0)) = fun i => |ts| * ‖Ms.getD i 0‖ := by
      funext i
      simp [norm_smul]
    rw [this, hx, List.sum_map_mul_left]
    congr 1
    have h2 : (o.map fun i => ‖Ms.getD i 0‖) = ((o.map fun i => Ms.getD i 0).map norm) := by rw [List.map_map]; rfl
    rw [h2, (hp.map norm).sum_eq]
    congr 1
    exact List.map_congr_left fun M hMs => (maxAbsEigenvalue_eq (by positivity) (hM M hMs)).symm
  rw [e1, e2, e3] at h
  exact h

theorem trotterMatrix_unitary (hM : ∀ M ∈ Ms, M.IsHermitian) (ts : ℝ) {o : List ℕ}
    (ho : o.Perm (List.range Ms.length)) : trotterMatrix Ms ts o ∈ unitaryGroup (Fin (2 ^ n)) ℂ := by
  refine list_prod_mem ?_
  intro A hA
  rw [List.mem_reverse] at hA
  obtain ⟨i, hi, rfl⟩ := List.mem_map.mp hA
  exact evolution_unitary (hM _ ((map_getD_perm (d := 0) ho).mem_iff.mp (List.mem_map.mpr ⟨i, hi, rfl⟩))) ts

/-- All steps of a Trotter sequence together. -/
theorem trotterProduct_bound (hH : H.Of Ms) (t : ℝ) {N : ℤ} (hN : 1 ≤ N) {orders : List (List ℕ)}
    (h3 : orders.length = N.toNat) (h4 : ∀ o ∈ orders, o.Perm (List.range Ms.length)) {L : ℝ}
    (hL : L = |t| * (Ms.map maxAbsEigenvalue).sum) :
    (orders.map (trotterMatrix Ms (t / N))).reverse.prod ∈ unitaryGroup (Fin (2 ^ n)) ℂ ∧
    1 - overlap (orders.map (trotterMatrix Ms (t / N))).reverse.prod (evolution Ms.sum t) ≤
      (L ^ 2 * Real.exp (L / N) / N) ^ 2 / 2 := by
  obtain ⟨g1, g2⟩ := hH.total
  have hM : ∀ M ∈ Ms, M.IsHermitian := fun M h => (hH.herm M h).1
  have hNpos : (0 : ℝ) < N := by exact_mod_cast hN
  have hk : ((N.toNat : ℕ) : ℝ) = N := by exact_mod_cast Int.toNat_of_nonneg (by omega : 0 ≤ N)
  have hx : L / N = |t / N| * (Ms.map maxAbsEigenvalue).sum := by
    rw [abs_div, abs_of_pos hNpos, hL]; ring
  have hlen : (orders.map (trotterMatrix Ms (t / N))).reverse.length = N.toNat := by simp [h3]
  have hbound := norm_prod_sub_pow_le (l := (orders.map (trotterMatrix Ms (t / N))).reverse)
    (B := evolution Ms.sum (t / N)) (ε := (L / N) ^ 2 * Real.exp (L / N)) (fun A hA => by
      rw [List.mem_reverse] at hA
      obtain ⟨o, ho, rfl⟩ := List.mem_map.mp hA
      exact ⟨trotterMatrix_unitary hM _ (h4 o ho), trotterMatrix_bound hM _ (h4 o ho) hx⟩) (evolution_unitary g2 _)
  rw [hlen, evolution_pow, hk, mul_div_cancel₀ _ hNpos.ne'] at hbound
  have hunit : (orders.map (trotterMatrix Ms (t / N))).reverse.prod ∈ unitaryGroup (Fin (2 ^ n)) ℂ := by
    refine list_prod_mem ?_
    intro A hA
    rw [List.mem_reverse] at hA
    obtain ⟨o, ho, rfl⟩ := List.mem_map.mp hA
    exact trotterMatrix_unitary hM _ (h4 o ho)
  refine ⟨hunit, (overlap_ge (by positivity) hunit (evolution_unitary g2 t)).trans ?_⟩
  have e : (N : ℝ) * ((L / N) ^ 2 * Real.exp (L / N)) = L ^ 2 * Real.exp (L / N) / N := by
    field_simp
  rw [e] at hbound
  gcongr

/-- C48: for every Hamiltonian, time, number of steps and outcome of the shuffles, the distance between the product of
the Trotter sequence and the time evolution operator is bounded by an explicit quantity of order `1 / N²`; `L` is the
time multiplied by the sum of the largest absolute eigenvalues of the terms. -/
theorem C48_trotter_bound {c : Client} {Cs : List Compiler} (hs : Session 0 c Cs)
    (hex : ∀ x ∈ c.world.entries, x.toVal.Exact) (hn : 1 ≤ n) (hH : H.Of Ms) (t : ℝ) {N : ℤ} (hN : 1 ≤ N)
    (randomize : Bool) {L : ℝ} (hL : L = |t| * (Ms.map maxAbsEigenvalue).sum) :
    ∃ s w' p U x, H.getTrotterSequence 0 t N randomize c.world = (.ok s, w') ∧ (Seq.product 0 s w').1 = .ok p ∧
      H.getTimeEvolutionOperator 0 t = .ok U ∧ p.distanceFrom 0 U = .ok x ∧ 0 ≤ x ∧
      x ≤ (L ^ 2 * Real.exp (L / N) / N) ^ 2 / 2 := by
  obtain ⟨s, w', es, orders, h1, h2, h3, h4, -, h5⟩ := C47_trotter_gates hs hex hn hH t hN randomize
  obtain ⟨p, k1, k2, k3⟩ := h2.product
  obtain ⟨g1, g2⟩ := hH.total
  obtain ⟨U, g3, g4, g5, -⟩ := C29_evolution (by positivity) g1 g2 t ""
  have hov : overlap (p.matrix.toMatrix (2 ^ n)) (U.matrix.toMatrix (2 ^ n)) =
      overlap (orders.map (trotterMatrix Ms (t / N))).reverse.prod (evolution Ms.sum t) := by
    refine overlap_congr ?_ g5
    rw [k3.2.2]
    exact circuit_trotter h5
  refine ⟨s, w', p, U, _, h1, k1, g3, Unitary.distanceFrom_eq k2 g4, ?_, ?_⟩
  · have := overlap_le_one k2.unitary g4.unitary
    linarith
  · rw [hov]
    exact (trotterProduct_bound hH t hN h3 h4 hL).2

/-- C48: the distance tends to 0 as the number of steps grows, uniformly in everything else: the state of the session
and the outcomes of the shuffles. -/
theorem C48_trotter_limit (hn : 1 ≤ n) (hH : H.Of Ms) (t : ℝ) {ε : ℝ} (hε : 0 < ε) :
    ∃ N₀ : ℤ, ∀ N ≥ N₀, ∀ (c : Client) (Cs : List Compiler), Session 0 c Cs →
      (∀ x ∈ c.world.entries, x.toVal.Exact) → ∀ randomize : Bool,
      ∃ s w' p U x, H.getTrotterSequence 0 t N randomize c.world = (.ok s, w') ∧ (Seq.product 0 s w').1 = .ok p ∧
        H.getTimeEvolutionOperator 0 t = .ok U ∧ p.distanceFrom 0 U = .ok x ∧ 0 ≤ x ∧ x < ε := by
  set L : ℝ := |t| * (Ms.map maxAbsEigenvalue).sum with hL
  have hlim : Filter.Tendsto (fun k : ℕ => (L ^ 2 * Real.exp (L / k) / k) ^ 2 / 2) Filter.atTop (nhds 0) := by
    have h1 : Filter.Tendsto (fun k : ℕ => L / (k : ℝ)) Filter.atTop (nhds 0) :=
      tendsto_const_div_atTop_nhds_zero_nat L
    have h2 : Filter.Tendsto (fun k : ℕ => L * Real.exp (L / k) * (L / k)) Filter.atTop
        (nhds (L * Real.exp 0 * 0)) :=
      ((Real.continuous_exp.tendsto 0).comp h1 |>.const_mul L).mul h1
    have h3 := (h2.pow 2).div_const 2
    simp only [mul_zero, ne_eq, OfNat.ofNat_ne_zero, not_false_eq_true, zero_pow, zero_div] at h3
    refine h3.congr fun k => ?_
    ring
  obtain ⟨k0, hk0⟩ := (Filter.eventually_atTop.mp (hlim.eventually (gt_mem_nhds hε)))
  refine ⟨max 1 k0, fun N hN c Cs hs hex randomize => ?_⟩
  have hN1 : 1 ≤ N := (le_max_left _ _).trans hN
  obtain ⟨s, w', p, U, x, h1, h2, h3, h4, h5, h6⟩ := C48_trotter_bound hs hex hn hH t hN1 randomize hL
  refine ⟨s, w', p, U, x, h1, h2, h3, h4, h5, h6.trans_lt ?_⟩
  have hk : ((N.toNat : ℕ) : ℝ) = N := by exact_mod_cast Int.toNat_of_nonneg (by omega : 0 ≤ N)
  have := hk0 N.toNat (by have := (le_max_right _ _).trans hN; omega)
  rwa [hk] at this

end Stoq
