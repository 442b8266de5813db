import Verif.Proofs.Example

/-!
# Property C93: the example notebook

Both reports of examples/stoq_example.ipynb, for all random numbers and all random targets, in exact arithmetic.  The
notebook reads `cost_by_step[-1]`; the list is empty exactly if the target is close to the identity from the start.
-/

namespace Stoq

open Matrix MeasureTheory Example Tests

/-- C93: a report on any search without a threshold, in any state of any program.  If the target is within `10⁻⁸` of the
identity, no step is made and reading the last cost raises IndexError; otherwise the report describes the sequence found,
which is the only new sequence of the program, and the annealing value has grown with the number of steps. -/
theorem C93_report {c : Client} {Cs : List Compiler} {p : Plain} (h : Mirror c Cs p) {C : Compiler} (hC : C ∈ Cs) {n : ℕ}
    (hD : C.dimension = 2 ^ n) (hprims : ∀ q ∈ C.primitives, q.Valid n) (hT : C.Truthy)
    (hch : ChoiceOk C.primitives C.probabilities) (hp : 0 ≤ C.appendProbability ∧ C.appendProbability ≤ 1)
    (hr : 0 ≤ C.annealingRate) {target : Unitary} (ht : target.Exact (2 ^ n)) {b : ℝ} (hb : c.world.annealing C = some b)
    {m : ℕ} (hm : 0 < m) (fmt : ℕ → ℝ → String) :
    (1 - overlap (target.matrix.toMatrix (2 ^ n)) 1 ≤ 1 / 100000000 →
      (report 0 fmt C m target c).1 = .error .indexError) ∧
    (1 / 100000000 < 1 - overlap (target.matrix.toMatrix (2 ^ n)) 1 →
      ∃ P c' v, report 0 fmt C m target c = (.ok P, c') ∧ Mirror c' Cs { p with seqs := p.seqs ++ [v] } ∧
        v.dimension = 2 ^ n ∧ P.Describes n (target.matrix.toMatrix (2 ^ n)) fmt m v.entries ∧
        (∀ g ∈ v.entries, ∃ q ∈ C.primitives, FromPrimitive 0 n q g) ∧
        c'.world.annealing C = some (min (b + P.steps * C.annealingRate) (((2 : ℝ) ^ 2 ^ n) ^ 2))) := by
  obtain ⟨h1, h2⟩ := report_mirror h hC ⟨hD, hprims, hT, hch, hp, hr, ht⟩ hb hm fmt
  rw [goodEnough_iff ht.unitary (SamePhase.refl _)] at h1 h2
  refine ⟨h1, fun hlt => ?_⟩
  obtain ⟨P, c', v, e, h3, h4, h5, h6, h7, -⟩ := h2 (not_le.mpr hlt)
  exact ⟨P, c', v, e, h3, h4, h5, fun g hg => (h7 g hg).2, by rw [h6, hD]⟩

/-- C93: what the notebook does.  The first report always appears.  If the random matrix is within `10⁻⁸` of the identity,
up to a phase, the second one fails with IndexError; otherwise it appears as well.  Both describe the sequences found, all
gates are native, and the second search starts with the annealing value that the first one has reached. -/
theorem C93_notebook (fmt : ℕ → ℝ → String) (rng : Rng) {sample : Arr} {V : Matrix (Fin (2 ^ 2)) (Fin (2 ^ 2)) ℂ}
    (hs : sample.Is V) (hV : V ∈ unitaryGroup (Fin (2 ^ 2)) ℂ) {m : ℕ} (hm : 0 < m) :
    (1 - overlap V 1 ≤ 1 / 100000000 → (notebook 0 fmt sample m (Client.start rng)).1 = .error .indexError) ∧
    (1 / 100000000 < 1 - overlap V 1 → ∃ P Q c' gates gates', notebook 0 fmt sample m (Client.start rng) = (.ok (P, Q), c') ∧
      P.Describes 2 (Gate.rot Gate.XX (2 * (Real.pi / 4))) fmt m gates ∧ Q.Describes 2 V fmt m gates' ∧
      (∀ v ∈ gates ++ gates', Native v) ∧
      c'.world.betas[0]? = some (min ((P.steps + Q.steps : ℝ) * 0.1) 256)) := by
  obtain ⟨xy, ms, target, hxy, hms, ht, hM, hstart⟩ := notebook_start
  obtain ⟨h0, e0⟩ := hstart rng
  obtain ⟨u, eu, hu, hph, -⟩ := Unitary.new_phase (d := 2 ^ 2) (by positivity) hs.1 hs.2.1 (by rw [hs.2.2]; exact hV) none none
  rw [hs.2.2] at hph
  have eu : Unitary.random 0 (2 ^ 2) sample = .ok u := eu
  set C := defaultCompiler (2 ^ 2) [⟨.inr xy, none⟩, ⟨.inr ms, none⟩] 0 with hCdef
  have hC : C ∈ [C] := List.mem_cons_self
  have hnat : ∀ {v : EntryVal}, (v.WF ∧ ∃ q ∈ C.primitives, FromPrimitive 0 2 q v) → Native v := by
    rintro v ⟨h1, q, h2, h3⟩
    exact native_of hxy hms h1 h2 h3
  obtain ⟨-, h2⟩ := report_mirror h0 hC (good_default hxy hms ht) (b := 0) rfl hm fmt
  rw [goodEnough_iff ht.unitary (SamePhase.refl _), hM] at h2
  obtain ⟨P, c1, v, e1, h3, -, h5, h6, h7, -⟩ := h2 (not_le.mpr ms_far)
  obtain ⟨k1, k2⟩ := report_mirror h3 hC (good_default hxy hms hu) h6 hm fmt
  rw [goodEnough_iff hu.unitary hph] at k1 k2
  have e2 : notebook 0 fmt sample m (Client.start rng) = (do
      let second ← report 0 fmt C m u
      return (P, second) : PyM Client (Printed × Printed)) c1 := by
    rw [e0, rest, PyM.bind_of_ok e1]
    exact PyM.bind_of_ok (a := u) (s' := c1) (by rw [eu]; rfl)
  rw [e2]
  refine ⟨fun hle => ?_, fun hlt => ?_⟩
  · rcases hx : report 0 fmt C m u c1 with ⟨e | Q, c2⟩
    · have := k1 hle
      rw [hx] at this
      rw [PyM.bind_of_error hx]
      cases this
      rfl
    · have := k1 hle
      rw [hx] at this
      cases this
  · obtain ⟨Q, c2, v', e3, l3, -, l5, l6, l7, -⟩ := k2 (not_le.mpr hlt)
    refine ⟨P, Q, c2, v.entries, v'.entries, by rw [PyM.bind_of_ok e3]; rfl, h5, l5.congr hph, fun g hg => ?_, ?_⟩
    · rcases List.mem_append.mp hg with hg | hg
      · exact hnat (h7 g hg)
      · exact hnat (l7 g hg)
    · rw [show c2.world.betas[0]? = c2.world.annealing C from rfl, l6]
      simp only [hCdef, defaultCompiler]
      have : (0 : ℝ) ≤ Q.steps * 0.1 := by positivity
      congr 1
      rw [← min_add_add_right, min_assoc, zero_add]
      congr 1
      · ring
      · rw [min_eq_right (by linarith)]; norm_num

/-- C93: a line of the printed text. -/
theorem C93_line (fmt : ℕ → ℝ → String) {v : EntryVal} (h : Native v) :
    (∃ θ φ q, θ ∈ Set.Icc 0 (2 * Real.pi) ∧ φ ∈ Set.Icc 0 (2 * Real.pi) ∧ q < 2 ∧ TextKind.line .qasm fmt v =
      "Rxy(pi*" ++ fmt 7 (θ / Real.pi) ++ ",pi*" ++ fmt 7 (φ / Real.pi) ++ ")\tq[" ++ toString q ++ "];") ∨
    (∃ θ i j, θ ∈ Set.Icc 0 (2 * Real.pi) ∧ (i = 0 ∧ j = 1 ∨ i = 1 ∧ j = 0) ∧ TextKind.line .qasm fmt v =
      "XX(pi*" ++ fmt 7 (θ / Real.pi) ++ ")\tq[" ++ toString i ++ "],q[" ++ toString j ++ "];") := by
  rcases h with ⟨θ, φ, q, h1, h2, h3, h4, -, h5, h6⟩ | ⟨θ, i, j, h1, h2, h3, -, h4, h5⟩
  · left
    refine ⟨θ, φ, q, h1, h2, h3, ?_⟩
    simp only [TextKind.line, qasmLine, h4, h5, h6]
    simp [String.ext_iff]
  · right
    refine ⟨θ, i, j, h1, h2, ?_⟩
    simp only [TextKind.line, qasmLine, h3, h4, h5]
    simp [String.ext_iff]

/-- C93: the probability that both searches of the notebook reach their targets within `10⁻⁸` tends to one exponentially
with the number of steps, at the same rate for all random targets. -/
theorem C93_found (fmt : ℕ → ℝ → String) {B : ℕ} (hB : 2 ≤ B) :
    ∃ (δ : ℝ) (K : ℕ), 0 < δ ∧ δ ≤ 1 ∧ 0 < K ∧ ∀ {sample : Arr} {V : Matrix (Fin (2 ^ 2)) (Fin (2 ^ 2)) ℂ},
      sample.Is V → V ∈ unitaryGroup (Fin (2 ^ 2)) ℂ → 1 / 100000000 < 1 - overlap V 1 → ∀ m : ℕ,
      1 - ENNReal.ofReal (2 * (1 - δ) ^ (m / K)) ≤
      Rng.tapes B {t | ∃ P Q c', notebook 0 fmt sample m (Client.start (Rng.start t)) = (.ok (P, Q), c') ∧
        P.finalCost ≤ 1 / 100000000 ∧ Q.finalCost ≤ 1 / 100000000} := by
  obtain ⟨xy, ms, target, hxy, hms, ht, hM, hstart⟩ := notebook_start
  obtain ⟨δ, K, a1, a2, a3, a4⟩ := native_wins hxy hms hB
  refine ⟨δ, K, a1, a2, a3, ?_⟩
  intro sample V hs hV hfar m
  obtain ⟨u, eu, hu, hph, -⟩ := Unitary.new_phase (d := 2 ^ 2) (by positivity) hs.1 hs.2.1 (by rw [hs.2.2]; exact hV) none none
  rw [hs.2.2] at hph
  have eu : Unitary.random 0 (2 ^ 2) sample = .ok u := eu
  have x2 : 0 ≤ (1 - δ) ^ (m / K) := pow_nonneg (by linarith) _
  have x3 : (1 - δ) ^ (m / K) ≤ 1 := pow_le_one₀ (by linarith) (by linarith)
  rcases Nat.eq_zero_or_pos m with rfl | hm
  · simp only [Nat.zero_div, pow_zero, mul_one]
    rw [tsub_eq_zero_of_le (ENNReal.one_le_ofReal.mpr one_le_two)]
    exact zero_le
  set C := defaultCompiler (2 ^ 2) [⟨.inr xy, none⟩, ⟨.inr ms, none⟩] 0 with hCdef
  have hC : C ∈ [C] := List.mem_cons_self
  have key := a4 _ ht.unitary m 0 le_rfl (fun st => {t | 0 ≤ st.beta → t ∈ Rng.after (Metropolis.run 2 (u.matrix.toMatrix (2 ^ 2)) none 0.1
    (((2 : ℝ) ^ 2 ^ 2) ^ 2) (C.proposal 0) m ⟨[], st.beta⟩) fun tr => {_t | Metropolis.GoodEnough none
      (Metropolis.cost 2 (u.matrix.toMatrix (2 ^ 2)) ((tr.map Metropolis.State.gates).getLast?.getD []))}})
    (1 - (1 - δ) ^ (m / K)) (by linarith) (by linarith) fun st => by
      by_cases hst : 0 ≤ st.beta
      · exact (a4 _ hu.unitary m st.beta hst).prob.trans (measure_mono fun t ht _ => ht)
      · refine le_trans (ENNReal.ofReal_le_one.mpr (by linarith)) ?_
        rw [← measure_univ (μ := Rng.tapes B)]
        exact measure_mono fun t _ h => absurd h hst
  rw [← ENNReal.ofReal_one, ← ENNReal.ofReal_sub _ (by linarith)]
  refine (ENNReal.ofReal_le_ofReal ?_).trans (key.trans (measure_mono fun t ht' => ?_))
  · nlinarith
  obtain ⟨tr, r1, e1, e2, e3⟩ := ht' (Rng.start t) (Rng.rest_start t)
  obtain ⟨h0, e0⟩ := hstart (Rng.start t)
  obtain ⟨-, h2⟩ := report_mirror h0 hC (good_default hxy hms ht) (b := 0) rfl hm fmt
  rw [goodEnough_iff ht.unitary (SamePhase.refl _), hM] at h2
  obtain ⟨P, c1, v, f1, h3, -, h5, h6, -, tr', h7, h8, h9⟩ := h2 (not_le.mpr ms_far)
  rw [hM] at e1
  have e1' : (Except.ok tr, r1) = (Except.ok tr', c1.world.rng) := e1.symm.trans h7
  cases e1'
  have hlast : ∀ (tr : List Metropolis.State) (b : ℝ), (tr.map Metropolis.State.gates).getLast?.getD [] =
      (tr.getLast?.getD ⟨[], b⟩).gates := by
    intro tr b
    rw [List.getLast?_map]
    cases tr.getLast? <;> rfl
  obtain ⟨k1, k2⟩ := report_mirror h3 hC (good_default hxy hms hu) h9 hm fmt
  rw [goodEnough_iff hu.unitary hph] at k2
  obtain ⟨Q, c2, v', g1, l3, -, l5, l6, -, tr2, l7, l8, -⟩ := k2 (not_le.mpr hfar)
  obtain ⟨tr2', r2, e4, e5⟩ := e3 (by
    rw [h6] at h9
    rw [← Option.some.inj h9]
    refine le_min ?_ (by positivity)
    simp only [hCdef, defaultCompiler]
    positivity) c1.world.rng rfl
  have e4' : (Except.ok tr2', r2) = (Except.ok tr2, c2.world.rng) := e4.symm.trans l7
  cases e4'
  refine ⟨P, Q, c2, ?_, ?_, ?_⟩
  · rw [e0, rest, PyM.bind_of_ok f1]
    refine (PyM.bind_of_ok (a := u) (s' := c1) (by rw [eu]; rfl)).trans ?_
    rw [PyM.bind_of_ok g1]; rfl
  · rw [h5.cost, h8, ← hlast, ← hM]
    exact (le_abs_self _).trans e2
  · rw [l5.cost, l8, ← hlast]
    exact (le_abs_self _).trans e5

/-! ## Examples -/

/-- The random target may be the controlled phase flip `diag(1, 1, 1, -1)`: enough steps find both targets with
probability at least 0.99. -/
example (fmt : ℕ → ℝ → String) : ∃ m0 : ℕ, ∀ m ≥ m0, 1 - ENNReal.ofReal (1 / 100) ≤
    Rng.tapes 2 {t | ∃ P Q c', notebook 0 fmt (Arr.ofRows [[1, 0, 0, 0], [0, 1, 0, 0], [0, 0, 1, 0], [0, 0, 0, -1]]) m
      (Client.start (Rng.start t)) = (.ok (P, Q), c') ∧ P.finalCost ≤ 1 / 100000000 ∧ Q.finalCost ≤ 1 / 100000000} := by
  obtain ⟨δ, K, h1, h2, h3, h4⟩ := C93_found fmt (B := 2) le_rfl
  have h4 := @h4 (Arr.ofRows [[1, 0, 0, 0], [0, 1, 0, 0], [0, 0, 1, 0], [0, 0, 0, -1]]) !![1, 0, 0, 0; 0, 1, 0, 0; 0, 0, 1, 0; 0, 0, 0, -1]
    ⟨rfl, rfl, by
      ext i j; fin_cases i <;> fin_cases j <;> simp [Arr.toMatrix, Arr.ofRows]⟩ (by
      rw [mem_unitaryGroup_iff]
      ext i j; fin_cases i <;> fin_cases j <;> simp [Matrix.mul_apply, star_apply, Fin.sum_univ_succ]) (by
      have h : Matrix.trace (!![1, 0, 0, 0; 0, 1, 0, 0; 0, 0, 1, 0; 0, 0, 0, -1] : Matrix (Fin 4) (Fin 4) ℂ) = 2 := by
        rw [Matrix.trace, Fin.sum_univ_four]
        change (1 : ℂ) + 1 + 1 + -1 = 2
        norm_num
      have h' : overlap (!![1, 0, 0, 0; 0, 1, 0, 0; 0, 0, 1, 0; 0, 0, 0, -1] : Matrix (Fin 4) (Fin 4) ℂ) 1 = 1 / 2 := by
        unfold overlap
        rw [mul_one, trace_conjTranspose, norm_star, h]
        norm_num
      change _ < 1 - overlap (!![1, 0, 0, 0; 0, 1, 0, 0; 0, 0, 1, 0; 0, 0, 0, -1] : Matrix (Fin 4) (Fin 4) ℂ) 1
      rw [h']
      norm_num)
  obtain ⟨q, hq⟩ := exists_pow_lt_of_lt_one (show (0 : ℝ) < 1 / 200 by norm_num) (show 1 - δ < 1 by linarith)
  refine ⟨q * K, fun m hm => le_trans (tsub_le_tsub_left (ENNReal.ofReal_le_ofReal ?_) 1) (h4 m)⟩
  have := pow_le_pow_of_le_one (show 0 ≤ 1 - δ by linarith) (by linarith) ((Nat.le_div_iff_mul_le h3).mpr hm)
  linarith

end Stoq
