import Mathlib.Analysis.Complex.ExponentialBounds
import Verif.Props.Continuous
import Verif.Props.CompileStoq
import Verif.Props.TrotterLimit
import Verif.Proofs.HitsThen

/-!
# C79: when the compilation of a time evolution can succeed

`compile_stoq_sequence` uses the evolutions under subsets of the terms for times up to `max_t_step` and gives up after
10000 steps.  It succeeds with positive probability if at most 10000 such evolutions come closer to the target than
required, and with probability zero if no 10000 come close enough.
-/

namespace Stoq

open MeasureTheory Compiler Matrix UnitaryDefinitions

/-! ## The parametrised time evolution is continuous up to a phase -/

open scoped Matrix.Norms.L2Operator in
theorem evolution_continuous {d : ℕ} (M : Matrix (Fin d) (Fin d) ℂ) : Continuous fun t : ℝ => evolution M t := by
  let _ : NormedAlgebra ℚ (Matrix (Fin d) (Fin d) ℂ) := NormedAlgebra.restrictScalars ℚ ℂ _
  have h1 : Continuous fun t : ℝ => (Complex.I * (t : ℂ)) • M :=
    (continuous_const.mul Complex.continuous_ofReal).smul continuous_const
  exact NormedSpace.exp_continuous.comp h1

theorem evolutionFamily_continuous {d : ℕ} {h : Arr} {M : Matrix (Fin d) (Fin d) ℂ} (hd : 0 < d) (hh : h.Is M)
    (hM : M.IsHermitian) (tMin tMax : ℝ) (suffix : String) :
    (evolutionFamily 0 h tMin tMax suffix).Continuous := by
  refine ParamUnitary.continuous_of_phase (d := d) (k := 1) hh.1 rfl (F := fun vs => evolution M (vs.getD 0 0)) ?_ ?_
  · intro i j
    simp only [List.ofFn_succ, List.getD_cons_zero]
    exact Continuous.matrix_elem ((evolution_continuous M).comp (continuous_apply _)) i j
  · intro vs hvs a ha
    obtain ⟨t, rfl⟩ := List.length_eq_one_iff.mp hvs.1
    obtain ⟨u, h1, h2, h3, -⟩ := C29_evolution hd hh hM t suffix
    change (do return (← timeEvolution 0 h t suffix).getMatrix) = _ at ha
    rw [h1] at ha
    cases ha
    exact h3

/-- C79: the parametrised time evolution of the library depends continuously on the time, up to a phase of the matrix
(the stored matrix has a phase that jumps). -/
theorem C79_evolution_continuous {d : ℕ} {h : Arr} {M : Matrix (Fin d) (Fin d) ℂ} (hd : 0 < d) (hh : h.Is M)
    (hM : M.IsHermitian) {tMin tMax : ℝ} {suffix : String} {pu : ParamUnitary}
    (hpu : ParamDefinitions.timeEvolution 0 h tMin tMax suffix = .ok pu) : pu.Continuous := by
  obtain ⟨-, rfl⟩ := param_evolution_eq hpu
  exact evolutionFamily_continuous hd hh hM tMin tMax suffix

/-! ## Evolutions under subsets of the terms -/

variable {n : ℕ} {Ms : List (Matrix (Fin (2 ^ n)) (Fin (2 ^ n)) ℂ)} {H : Hamiltonian}

/-- The product of evolutions under subsets of the terms, the first one applied first. -/
noncomputable def evolutionWord (Ms : List (Matrix (Fin (2 ^ n)) (Fin (2 ^ n)) ℂ)) (word : List (List ℕ × ℝ)) :
    Matrix (Fin (2 ^ n)) (Fin (2 ^ n)) ℂ :=
  (word.map fun x => evolution (subsetSum Ms x.1) x.2).reverse.prod

/-- The evolutions of the word may be used. -/
def WordOk (H : Hamiltonian) (b : Bool) (m : ℝ) (word : List (List ℕ × ℝ)) : Prop :=
  ∀ x ∈ word, x.1 ∈ H.termSubsets b ∧ |x.2| ≤ m

/-- The times can be made a little shorter. -/
theorem overlap_shorter (T : Matrix (Fin (2 ^ n)) (Fin (2 ^ n)) ℂ) (word : List (List ℕ × ℝ)) {y : ℝ}
    (h : 1 - overlap T (evolutionWord Ms word) < y) :
    ∃ η : ℝ, 0 < η ∧ η < 1 ∧ 1 - overlap T (evolutionWord Ms (word.map fun x => (x.1, (1 - η) * x.2))) < y := by
  have hc : Continuous fun η : ℝ => 1 - overlap T (evolutionWord Ms (word.map fun x => (x.1, (1 - η) * x.2))) := by
    unfold overlap evolutionWord
    refine continuous_const.sub (Continuous.div_const (continuous_norm.comp (Continuous.matrix_trace
      (continuous_const.matrix_mul ?_))) _)
    simp only [List.map_map, ← List.map_reverse]
    refine continuous_list_prod _ fun x _ => ?_
    exact (evolution_continuous (subsetSum Ms x.1)).comp
      ((continuous_const.sub continuous_id).mul continuous_const : Continuous fun η : ℝ => (1 - η) * x.2)
  have h0 : 1 - overlap T (evolutionWord Ms (word.map fun x => (x.1, (1 - 0) * x.2))) < y := by simpa using h
  obtain ⟨η, h1, h2⟩ := Metric.mem_nhds_iff.mp (hc.continuousAt.eventually (gt_mem_nhds h0))
  refine ⟨min (η / 2) (1 / 2), lt_min (by linarith) (by norm_num), (min_le_right _ _).trans_lt (by norm_num), h2 ?_⟩
  rw [Metric.mem_ball, Real.dist_eq, sub_zero, abs_of_pos (lt_min (by linarith) (by norm_num))]
  exact (min_le_left _ _).trans_lt (by linarith)

/-- The primitives of the compilation as a source of gates. -/
theorem stoq_source (hn : 1 ≤ n) (hH : H.Of Ms) {m : ℝ} (hm : 0 ≤ m) {b : Bool} {prims : List Primitive}
    (hp : H.getUnitaryPrimitives 0 m b = .ok prims) {B : ℕ} (hB : n ≤ B) (hB1 : (H.termSubsets b).length ≤ B) :
    Metropolis.Source B n 1 (Metropolis.one (createRandomEntryVal 0 (2 ^ n) prims none)) := by
  obtain ⟨prims', hp', hval, -⟩ := C50_primitives hn hH hm b
  rw [hp] at hp'
  cases hp'
  have hmem : ∀ p ∈ prims, ∃ s ∈ H.termSubsets b, p = H.subsetPrimitive 0 m s := by
    intro p h
    rw [primitives_eq hp] at h
    obtain ⟨s, hs, rfl⟩ := List.mem_map.mp h
    exact ⟨s, hs, rfl⟩
  refine Metropolis.one_source ?_ hval ?_ hB (by rw [primitives_eq hp, List.length_map]; exact hB1) ?_
  · unfold ChoiceOk
    rw [filter_usable, show placeable prims = prims from List.filter_eq_self.mpr fun p h => by
      obtain ⟨s, -, rfl⟩ := hmem p h
      simp [Hamiltonian.subsetPrimitive], primitives_eq hp, List.length_map]
    exact hH.subsets_pos b
  · intro p h
    obtain ⟨s, hs, rfl⟩ := hmem p h
    obtain ⟨h1, h2⟩ := hH.subset (hH.subset_lt hs).2
    exact evolutionFamily_continuous (by positivity) h1 h2 _ _ _
  · intro p h lists hl
    obtain ⟨s, -, rfl⟩ := hmem p h
    cases hl
    simpa using hn.trans hB

/-- Every evolution under a subset for a time of `[-m, m)` is drawn for some random numbers. -/
theorem stoq_result (hn : 1 ≤ n) (hH : H.Of Ms) {m : ℝ} (hm : 0 ≤ m) {b : Bool} {prims : List Primitive}
    (hp : H.getUnitaryPrimitives 0 m b = .ok prims) {s : List ℕ} (hs : s ∈ H.termSubsets b) {t : ℝ}
    (ht : -m ≤ t ∧ t < m ∨ m = 0 ∧ t = 0) :
    ∃ v, Rng.Result (createRandomEntryVal 0 (2 ^ n) prims none) v ∧
      Evolves n (Hamiltonian.subsetSuffix s) (subsetSum Ms s) t v := by
  obtain ⟨j, hj, rfl⟩ := List.getElem_of_mem hs
  obtain ⟨u, hu⟩ : ∃ u : Set.Ico (0 : ℝ) 1, 2 * m * (u : ℝ) - m = t := by
    rcases ht with ⟨h1, h2⟩ | ⟨rfl, rfl⟩
    · have hm0 : 0 < m := by linarith
      refine ⟨⟨(t + m) / (2 * m), div_nonneg (by linarith) (by positivity), ?_⟩, ?_⟩
      · rw [div_lt_one (by positivity)]; linarith
      · field_simp; ring
    · exact ⟨⟨0, le_rfl, one_pos⟩, by simp⟩
  obtain ⟨v, s', h1, h2, h3⟩ := fresh_gate hn hH hm hp (Rng.start (fun _ => u, fun _ => j))
  have e1 : (Rng.start (fun _ => u, fun _ => j)).nat (Rng.start (fun _ => u, fun _ => j)).npos = j := rfl
  have e2 : (Rng.start (fun _ => u, fun _ => j)).unif (Rng.start (fun _ => u, fun _ => j)).upos = u := rfl
  rw [e1, Nat.mod_eq_of_lt hj, List.getElem?_eq_getElem hj] at h2
  cases h2
  rw [e2, hu] at h3
  exact ⟨v, ⟨_, _, h1⟩, h3⟩

/-- A word of evolutions for times of `[-m, m)` can be drawn. -/
theorem stoq_word (hn : 1 ≤ n) (hH : H.Of Ms) {m : ℝ} (hm : 0 ≤ m) {b : Bool} {prims : List Primitive}
    (hp : H.getUnitaryPrimitives 0 m b = .ok prims) {word : List (List ℕ × ℝ)}
    (hw : ∀ x ∈ word, x.1 ∈ H.termSubsets b ∧ (-m ≤ x.2 ∧ x.2 < m ∨ m = 0 ∧ x.2 = 0)) :
    ∃ gates : List EntryVal, gates.length = word.length ∧
      (∀ v ∈ gates, Rng.Result (createRandomEntryVal 0 (2 ^ n) prims none) v) ∧
      SamePhase (circuit n gates) (evolutionWord Ms word) := by
  have key : ∃ gates : List EntryVal, (∀ v ∈ gates, Rng.Result (createRandomEntryVal 0 (2 ^ n) prims none) v) ∧
      List.Forall₂ (fun e p => ∃ s, Evolves n s p.1 p.2 e) gates (word.map fun x => (subsetSum Ms x.1, x.2)) := by
    induction word with
    | nil => exact ⟨[], by simp, .nil⟩
    | cons x word ih =>
      obtain ⟨gates, h1, h2⟩ := ih fun y hy => hw y (List.mem_cons_of_mem _ hy)
      obtain ⟨h3, h4⟩ := hw x List.mem_cons_self
      obtain ⟨v, h5, h6⟩ := stoq_result hn hH hm hp h3 h4
      exact ⟨v :: gates, by simpa using ⟨h5, h1⟩, .cons ⟨_, h6⟩ h2⟩
  obtain ⟨gates, h1, h2⟩ := key
  refine ⟨gates, by simpa using h2.length_eq, h1, ?_⟩
  have := circuit_evolves h2
  rwa [List.map_map] at this

/-- The call performs the walk, with every source of random numbers. -/
theorem stoq_walks {w : World} (hw : w.WF 0) (hex : ∀ x ∈ w.entries, x.toVal.Exact) (hn : 1 ≤ n) (hH : H.Of Ms)
    {t m : ℝ} (hm : 0 ≤ m)
    (threshold : Option ℝ) (b : Bool) {prims : List Primitive} (hp : H.getUnitaryPrimitives 0 m b = .ok prims)
    {target : Unitary} (h1 : H.getTimeEvolutionOperator 0 t = .ok target) (h2 : target.Exact (2 ^ n)) :
    ∃ C : Compiler, C.annealingRate = 0.1 ∧ FollowsWalk n C target threshold (10000 : ℕ)
      (Metropolis.propose 0.5 (Metropolis.one (createRandomEntryVal 0 (2 ^ n) prims none)) 1) 0 w
        (H.compileStoqSequence 0 t m threshold b w) := by
  obtain ⟨prims', hp', hval, -⟩ := C50_primitives hn hH hm b
  rw [hp] at hp'
  cases hp'
  have hD := hH.terms.1
  have hT : CompilerUsable H.dimension prims false := by
    refine ⟨⟨by rw [hD]; positivity, fun q hq => by rw [hD]; exact valid_dimension (hval q hq)⟩, ?_, by simp⟩
    rw [primitives_eq hp]
    intro h
    have := hH.subsets_pos b
    rw [List.map_eq_nil_iff.mp h] at this
    exact lt_irrefl _ this
  obtain ⟨C, k1, k2, k3, -, k4⟩ := (newCompile_ok 0 H.dimension prims false none 0.5 threshold 10000 w
    target hw).1 hT
  refine ⟨C, k2, ?_⟩
  rw [stoq_ok h1 hp]
  have := follows_of_post (w := { w with betas := w.betas ++ [0] }) (k1.trans hD)
    (by rw [k3, k1]) hex (fun v hv => generated_good hval (by rw [← hD]; exact hv)) h2 k4
  rw [show (ravCompiler H.dimension prims false none 0.5 0).proposal 0 =
    Metropolis.propose 0.5 (Metropolis.one (createRandomEntryVal 0 (2 ^ n) prims none)) 1 by rw [hD]; rfl] at this
  exact this

/-- The call returns gates whose product is good enough for the time evolution. -/
def StoqSucceeds (Ms : List (Matrix (Fin (2 ^ n)) (Fin (2 ^ n)) ℂ)) (t : ℝ) (threshold : Option ℝ)
    (out : Except PyErr CompilerResult × World) : Prop :=
  ∃ gates costs, ReturnsGates gates costs out ∧
    Metropolis.GoodEnough threshold (1 - overlap (evolution Ms.sum t) (circuit n gates))

/-- A call that can succeed does so, and leaves random numbers of `S` to what follows it, with a positive probability. -/
theorem stoq_then (hn : 1 ≤ n) (hH : H.Of Ms) {t m : ℝ} (hm : 0 ≤ m) {threshold : Option ℝ} {b : Bool}
    {word : List (List ℕ × ℝ)} (hw : WordOk H b m word) (hl : word.length ≤ 10000)
    (hgood : 1 - overlap (evolution Ms.sum t) (evolutionWord Ms word) < Metropolis.allowed threshold) {B : ℕ}
    (hB : n ≤ B) (hB1 : (H.termSubsets b).length ≤ B) :
    ∃ δ : ℝ, 0 < δ ∧ δ ≤ 1 ∧ ∀ y : ℝ, 0 ≤ y → y ≤ 1 → ∀ S : Set Rng.Tape, ENNReal.ofReal y ≤ Rng.tapes B S →
      ENNReal.ofReal (δ * y) ≤ Rng.tapes B {t' | ∀ w : World, w.WF 0 → (∀ x ∈ w.entries, x.toVal.Exact) → w.rng.rest = t' →
        StoqSucceeds Ms t threshold (H.compileStoqSequence 0 t m threshold b w) ∧
        (H.compileStoqSequence 0 t m threshold b w).2.rng.rest ∈ S} := by
  obtain ⟨prims, hp, -, -⟩ := C50_primitives hn hH hm b
  obtain ⟨g1, g2⟩ := hH.total
  obtain ⟨target, h1, h2, h3, -⟩ := C29_evolution (by positivity) g1 g2 t ""
  have hcost : ∀ X, overlap (target.matrix.toMatrix (2 ^ n)) X = overlap (evolution Ms.sum t) X :=
    fun X => overlap_congr h3 (.refl _)
  obtain ⟨η, e1, e2, e3⟩ := overlap_shorter _ _ hgood
  obtain ⟨gates, f1, f2, f3⟩ := stoq_word hn hH hm hp (word := word.map fun x => (x.1, (1 - η) * x.2)) (fun x hx => by
    obtain ⟨y, hy, rfl⟩ := List.mem_map.mp hx
    obtain ⟨h4, h5⟩ := hw y hy
    refine ⟨h4, ?_⟩
    rcases hm.eq_or_lt with rfl | hm
    · right
      rw [abs_nonpos_iff.mp h5, mul_zero]
      exact ⟨rfl, rfl⟩
    · left
      have h6 : |(1 - η) * y.2| < m := by
        rw [abs_mul, abs_of_pos (by linarith : 0 < 1 - η)]
        calc (1 - η) * |y.2| ≤ (1 - η) * m := mul_le_mul_of_nonneg_left h5 (by linarith)
          _ < m := by nlinarith
      exact ⟨(abs_lt.mp h6).1.le, (abs_lt.mp h6).2⟩)
  obtain ⟨x, hx1, hx2⟩ := exists_between e3
  obtain ⟨δ, k1, k2, k3⟩ := Metropolis.winsThen_possible (cap := ((2 : ℝ) ^ 2 ^ n) ^ 2) (p := 0.5) (threshold := threshold)
    (stoq_source hn hH hm hp hB hB1) (by positivity) (by norm_num) (by norm_num)
    (ws := gates.map fun v => [v]) (fun l hl => by
      obtain ⟨v, hv, rfl⟩ := List.mem_map.mp hl
      obtain ⟨r, r', h⟩ := f2 v hv
      exact ⟨r, r', Metropolis.one_ok_iff.mpr ⟨v, h, rfl⟩⟩) hx2 (m := 10000) (by simpa [f1] using hl)
  refine ⟨δ, k1, k2, fun y hy0 hy1 S hS => ?_⟩
  have k4 := k3 _ h2.unitary (by
    rw [flatten_singletons]
    unfold Metropolis.cost
    rw [overlap_congr h3 f3]
    exact hx1.le) 0.1 (by norm_num) 0 le_rfl y hy0 hy1 S hS
  refine k4.trans (measure_mono fun t' ht w hw hex hrest => ?_)
  obtain ⟨C, hC, hf⟩ := stoq_walks hw hex hn hH hm threshold b hp h1 h2
  obtain ⟨tr, r', hrun, hgd, hS'⟩ := ht w.rng hrest
  unfold FollowsWalk at hf
  rw [Int.toNat_natCast, hC, hrun] at hf
  obtain ⟨hr', R, hR, hc, ⟨undo, hv⟩, -⟩ := hf
  refine ⟨⟨_, _, ⟨R, hR, rfl, _, hv, rfl⟩, ?_⟩, by rw [hr']; exact hS'⟩
  have hg : (tr.getLast?.getD ⟨[], 0⟩).gates = (tr.map Metropolis.State.gates).getLast?.getD [] := by
    rw [List.getLast?_map]
    cases tr.getLast? <;> rfl
  change Metropolis.GoodEnough threshold (1 - overlap _ (circuit n (tr.getLast?.getD ⟨[], 0⟩).gates))
  rw [hg, ← hcost]
  exact hgd

/-- C79: if some word of at most 10000 evolutions that may be used is closer to the time evolution than required, the
call returns a good enough sequence with a positive probability, which is the same for all histories of the session. -/
theorem C79_stoq_possible (hn : 1 ≤ n) (hH : H.Of Ms) {t m : ℝ} (hm : 0 ≤ m) {threshold : Option ℝ} {b : Bool}
    {word : List (List ℕ × ℝ)} (hw : WordOk H b m word) (hl : word.length ≤ 10000)
    (hgood : 1 - overlap (evolution Ms.sum t) (evolutionWord Ms word) < Metropolis.allowed threshold) {B : ℕ}
    (hB : n ≤ B) (hB1 : (H.termSubsets b).length ≤ B) :
    ∃ δ : ℝ, 0 < δ ∧ ∀ {c : Client} {Cs : List Compiler}, Session 0 c Cs →
      (∀ x ∈ c.world.entries, x.toVal.Exact) → ENNReal.ofReal δ ≤ Rng.tapes B {t' | StoqSucceeds Ms t threshold
        (H.compileStoqSequence 0 t m threshold b (c.world.reseed t'))} := by
  obtain ⟨δ, k1, -, k2⟩ := stoq_then hn hH hm hw hl hgood hB hB1
  refine ⟨δ, k1, fun {c Cs} hs hex => ?_⟩
  have := k2 1 zero_le_one le_rfl Set.univ (by simp)
  rw [mul_one] at this
  exact this.trans (measure_mono fun t' ht => (ht (c.world.reseed t') (hs.ok.1.wf.reseed t') hex (Rng.rest_start t')).1)

/-- C79: conversely, whenever the call returns a good enough sequence, its gates are a word of at most 10000 evolutions
that may be used and that is close enough. -/
theorem C79_stoq_necessary {c : Client} {Cs : List Compiler} (hs : Session 0 c Cs)
    (hn : 1 ≤ n) (hH : H.Of Ms) {t m : ℝ}
    {threshold : Option ℝ} {b : Bool} {out : Except PyErr CompilerResult × World}
    (hout : out = H.compileStoqSequence 0 t m threshold b c.world) (h : StoqSucceeds Ms t threshold out) :
    ∃ word, WordOk H b m word ∧ word.length ≤ 10000 ∧
      Metropolis.GoodEnough threshold (1 - overlap (evolution Ms.sum t) (evolutionWord Ms word)) := by
  obtain ⟨gates, costs, ⟨R, h1, h2, v, h3, h4⟩, h5⟩ := h
  have hcall : H.compileStoqSequence 0 t m threshold b c.world = (.ok R, out.2) := by rw [← hout, ← h1]
  obtain ⟨-, ⟨es, undo, k1, k2, k3⟩, k4, -⟩ := C51_stoq_shape hs hcall
  have hes : gates = es := by
    rw [k1, Option.some.injEq] at h3
    rw [← h4, ← h3]
  subst hes
  have key : ∃ word : List (List ℕ × ℝ), WordOk H b m word ∧
      List.Forall₂ (fun e p => ∃ s, Evolves n s p.1 p.2 e) gates (word.map fun x => (subsetSum Ms x.1, x.2)) := by
    clear h5 h4 k1 k3
    induction gates with
    | nil => exact ⟨[], by simp [WordOk], .nil⟩
    | cons e gates ih =>
      obtain ⟨word, g1, g2⟩ := ih fun v hv => k2 v (List.mem_cons_of_mem _ hv)
      obtain ⟨t', h⟩ := k2 e List.mem_cons_self
      obtain ⟨s, f1, f2, f3, f4⟩ := h.evolves hn hH
      refine ⟨(s, t') :: word, ?_, .cons ⟨_, f4⟩ g2⟩
      intro x hx
      rcases List.mem_cons.mp hx with rfl | hx
      · exact ⟨f1, abs_le.mpr ⟨f2, f3⟩⟩
      · exact g1 x hx
  obtain ⟨word, g1, g2⟩ := key
  have hlen : gates.length = word.length := by simpa using g2.length_eq
  refine ⟨word, g1, by omega, ?_⟩
  have := circuit_evolves g2
  rw [List.map_map] at this
  rw [← overlap_congr (.refl (evolution Ms.sum t)) (show SamePhase (circuit n gates) (evolutionWord Ms word) from this)]
  exact h5

/-- C79: with `max_t_step = 0` nothing can be achieved. -/
theorem C79_stoq_zero_step {c : Client} {Cs : List Compiler} (hs : Session 0 c Cs) (hn : 1 ≤ n) (hH : H.Of Ms) {t : ℝ}
    {threshold : Option ℝ} {b : Bool} {out : Except PyErr CompilerResult × World}
    (hout : out = H.compileStoqSequence 0 t 0 threshold b c.world) (h : StoqSucceeds Ms t threshold out) :
    Metropolis.GoodEnough threshold (1 - overlap (evolution Ms.sum t) 1) := by
  obtain ⟨word, h1, -, h2⟩ := C79_stoq_necessary hs hn hH hout h
  have e : evolutionWord Ms word = 1 := by
    unfold evolutionWord
    refine List.prod_eq_one fun A hA => ?_
    rw [List.mem_reverse] at hA
    obtain ⟨x, hx, rfl⟩ := List.mem_map.mp hA
    rw [abs_nonpos_iff.mp (h1 x hx).2]
    simp [evolution]
  rwa [e] at h2

/-! ## Words that are close -/

theorem evolutionWord_append (a b : List (List ℕ × ℝ)) :
    evolutionWord Ms (a ++ b) = evolutionWord Ms b * evolutionWord Ms a := by
  unfold evolutionWord
  rw [List.map_append, List.reverse_append, List.prod_append]

theorem evolutionWord_flatten (ws : List (List (List ℕ × ℝ))) :
    evolutionWord Ms ws.flatten = (ws.map (evolutionWord Ms)).reverse.prod := by
  induction ws with
  | nil => simp [evolutionWord]
  | cons w ws ih =>
    rw [List.flatten_cons, evolutionWord_append, ih, List.map_cons, List.reverse_cons, List.prod_append,
      List.prod_singleton]

theorem Hamiltonian.Of.single_mem (hH : H.Of Ms) (b : Bool) {i : ℕ} (hi : i < Ms.length) : [i] ∈ H.termSubsets b := by
  rw [← hH.length] at hi
  cases b
  · rw [C50_single]; exact List.mem_map.mpr ⟨i, List.mem_range.mpr hi, rfl⟩
  · rw [C50_members]; simpa using hi

/-- The steps of the Trotter formula. -/
noncomputable def trotterWord (k N : ℕ) (t : ℝ) : List (List ℕ × ℝ) :=
  (List.replicate N ((List.range k).map fun i => ([i], t / N))).flatten

theorem trotterWord_spec (hH : H.Of Ms) {t : ℝ} {N : ℕ} (hN : 1 ≤ N) {L : ℝ}
    (hL : L = |t| * (Ms.map maxAbsEigenvalue).sum) :
    (∀ x ∈ trotterWord Ms.length N t, (∀ b, x.1 ∈ H.termSubsets b) ∧ x.2 = t / N) ∧
    (trotterWord Ms.length N t).length = N * Ms.length ∧
    1 - overlap (evolution Ms.sum t) (evolutionWord Ms (trotterWord Ms.length N t)) ≤
      (L ^ 2 * Real.exp (L / N) / N) ^ 2 / 2 := by
  refine ⟨?_, by simp [trotterWord], ?_⟩
  · intro x hx
    unfold trotterWord at hx
    obtain ⟨l, hl, hx⟩ := List.mem_flatten.mp hx
    rw [(List.mem_replicate.mp hl).2] at hx
    obtain ⟨i, hi, rfl⟩ := List.mem_map.mp hx
    exact ⟨fun b => hH.single_mem b (List.mem_range.mp hi), rfl⟩
  · have h := (trotterProduct_bound hH t (N := N) (by exact_mod_cast hN)
      (orders := List.replicate N (List.range Ms.length)) (by simp)
      (fun o ho => by rw [(List.mem_replicate.mp ho).2]) hL).2
    have e : evolutionWord Ms ((List.range Ms.length).map fun i => ([i], t / (N : ℝ))) =
        trotterMatrix Ms (t / (N : ℝ)) (List.range Ms.length) := by
      unfold evolutionWord trotterMatrix
      rw [List.map_map]
      congr 2
      refine List.map_congr_left fun i _ => ?_
      simp [subsetSum]
    rw [overlap_comm, trotterWord, evolutionWord_flatten, List.map_replicate, e]
    rw [List.map_replicate] at h
    exact_mod_cast h

theorem trotter_tendsto (L : ℝ) :
    Filter.Tendsto (fun k : ℕ => (L ^ 2 * Real.exp (L / k) / k) ^ 2 / 2) Filter.atTop (nhds 0) := by
  have h1 : Filter.Tendsto (fun k : ℕ => L / (k : ℝ)) Filter.atTop (nhds 0) :=
    tendsto_const_div_atTop_nhds_zero_nat L
  have h2 : Filter.Tendsto (fun k : ℕ => L * Real.exp (L / k) * (L / k)) Filter.atTop
      (nhds (L * Real.exp 0 * 0)) :=
    ((Real.continuous_exp.tendsto 0).comp h1 |>.const_mul L).mul h1
  have h3 := (h2.pow 2).div_const 2
  simp only [mul_zero, ne_eq, OfNat.ofNat_ne_zero, not_false_eq_true, zero_pow, zero_div] at h3
  refine h3.congr fun k => ?_
  ring

theorem exists_trotter {L : ℝ} (t : ℝ) {m y : ℝ} (hm : 0 < m) (hy : 0 < y) :
    ∃ N : ℕ, 1 ≤ N ∧ (-m ≤ t / N ∧ t / N < m) ∧ (L ^ 2 * Real.exp (L / N) / N) ^ 2 / 2 < y := by
  have h1 := (trotter_tendsto L).eventually (gt_mem_nhds hy)
  have h2 := (tendsto_const_div_atTop_nhds_zero_nat t).eventually (Ioo_mem_nhds (neg_lt_zero.mpr hm) hm)
  obtain ⟨N, ⟨h3, h4⟩, h5⟩ := ((h1.and h2).and (Filter.eventually_ge_atTop 1)).exists
  exact ⟨N, h5, ⟨h4.1.le, h4.2⟩, h3⟩

/-- C79: the Trotter formula with `N` steps, if its steps are short enough and it has at most 10000 gates, shows that
the compilation can succeed. -/
theorem C79_trotter_possible (hn : 1 ≤ n) (hH : H.Of Ms) {t m : ℝ} (hm : 0 ≤ m) {threshold : Option ℝ} (b : Bool)
    {N : ℕ} (hN : 1 ≤ N) (hstep : |t| ≤ N * m) (hlen : N * Ms.length ≤ 10000) {L : ℝ}
    (hL : L = |t| * (Ms.map maxAbsEigenvalue).sum)
    (hgood : (L ^ 2 * Real.exp (L / N) / N) ^ 2 / 2 < Metropolis.allowed threshold) {B : ℕ} (hB : n ≤ B)
    (hB1 : (H.termSubsets b).length ≤ B) :
    ∃ δ : ℝ, 0 < δ ∧ ∀ {c : Client} {Cs : List Compiler}, Session 0 c Cs →
      (∀ x ∈ c.world.entries, x.toVal.Exact) → ENNReal.ofReal δ ≤ Rng.tapes B {t' | StoqSucceeds Ms t threshold
        (H.compileStoqSequence 0 t m threshold b (c.world.reseed t'))} := by
  obtain ⟨h1, h2, h3⟩ := trotterWord_spec hH (t := t) hN hL
  have hN0 : (0 : ℝ) < N := by exact_mod_cast hN
  refine C79_stoq_possible hn hH hm (word := trotterWord Ms.length N t) (fun x hx => ?_) (by rw [h2]; exact hlen)
    (h3.trans_lt hgood) hB hB1
  obtain ⟨h4, h5⟩ := h1 x hx
  refine ⟨h4 b, ?_⟩
  rw [h5, abs_div, abs_of_pos hN0, div_le_iff₀ hN0, mul_comm]
  exact hstep

/-- C79: with simultaneous terms, a time evolution for up to 10000 times `max_t_step` can be compiled up to every
threshold below 1. -/
theorem C79_simultaneous_possible (hn : 1 ≤ n) (hH : H.Of Ms) {t m : ℝ} (hm : 0 ≤ m) (hstep : |t| ≤ 10000 * m)
    {threshold : Option ℝ} (hth : ∀ x, threshold = some x → x < 1) {B : ℕ} (hB : n ≤ B)
    (hB1 : 2 ^ Ms.length - 1 ≤ B) :
    ∃ δ : ℝ, 0 < δ ∧ ∀ {c : Client} {Cs : List Compiler}, Session 0 c Cs →
      (∀ x ∈ c.world.entries, x.toVal.Exact) → ENNReal.ofReal δ ≤ Rng.tapes B {t' | StoqSucceeds Ms t threshold
        (H.compileStoqSequence 0 t m threshold true (c.world.reseed t'))} := by
  obtain ⟨g1, g2⟩ := hH.total
  refine C79_stoq_possible hn hH hm (word := List.replicate 10000 (List.range Ms.length, t / 10000)) (fun x hx => ?_)
    List.length_replicate.le ?_ hB (by rw [C50_count, hH.length]; exact hB1)
  · rw [(List.mem_replicate.mp hx).2]
    refine ⟨(C50_members H _).mpr ⟨?_, List.pairwise_lt_range, fun i hi => ?_⟩, ?_⟩
    · have := hH.terms.2.1
      have h0 := List.length_pos_of_ne_nil this
      rw [hH.length] at h0
      intro h
      rw [List.range_eq_nil.mp h] at h0
      exact lt_irrefl _ h0
    · rw [hH.length]; exact List.mem_range.mp hi
    · rw [abs_div, abs_of_pos (by norm_num : (0 : ℝ) < 10000)]
      linarith
  · have e : evolutionWord Ms (List.replicate 10000 (List.range Ms.length, t / 10000)) = evolution Ms.sum t := by
      have e1 : subsetSum Ms (List.range Ms.length) = Ms.sum := by
        unfold subsetSum
        congr 1
        exact List.ext_getElem (by simp) fun i h1 h2 => by simp [List.getD_eq_getElem?_getD, h2]
      unfold evolutionWord
      rw [List.map_replicate, List.reverse_replicate, List.prod_replicate, e1, evolution_pow]
      congr 1
      norm_num
      ring
    rw [e, overlap_self (by positivity) (evolution_unitary g2 t), sub_self]
    exact allowed_pos hth

/-! ## Any number of steps -/

/-- C79: a compiler made of the evolutions under the terms (or all subsets of them) for times up to some positive
`max_t_step`, with any limit on the steps, finds every time evolution up to every threshold below 1, with a probability
that tends to one exponentially as the limit grows. -/
theorem C79_evolutions_succeed (hn : 1 ≤ n) (hH : H.Of Ms) {m : ℝ} (hm : 0 < m) (b : Bool) {prims : List Primitive}
    (hprims : H.getUnitaryPrimitives 0 m b = .ok prims) (t : ℝ) {target : Unitary}
    (ht : H.getTimeEvolutionOperator 0 t = .ok target) {p : ℝ} (hp : 0 < p ∧ p ≤ 1)
    {threshold : Option ℝ} (hth : ∀ x, threshold = some x → x < 1) {B : ℕ} (hB : n ≤ B)
    (hB1 : (H.termSubsets b).length ≤ B) :
    ∃ (δ : ℝ) (K : ℕ), 0 < δ ∧ δ ≤ 1 ∧ 0 < K ∧ ∀ {c : Client} {Cs : List Compiler}, Session 0 c Cs →
      (∀ x ∈ c.world.entries, x.toVal.Exact) → ∀ {C : Compiler}, C ∈ Cs → C.dimension = 2 ^ n → C.primitives = prims →
      C.probabilities = none → C.appendProbability = p → 0 ≤ C.annealingRate → C.Truthy → ∀ k : ℕ,
        1 - ENNReal.ofReal ((1 - δ) ^ (k / K)) ≤ Rng.tapes B {t' | Succeeds n target threshold
          (C.compile 0 target threshold k (c.world.reseed t'))} := by
  obtain ⟨prims', hp', hval, -⟩ := C50_primitives hn hH hm.le b
  rw [hprims] at hp'
  cases hp'
  obtain ⟨g1, g2⟩ := hH.total
  obtain ⟨target', f1, f2, f3, -⟩ := C29_evolution (by positivity) g1 g2 t ""
  have : target' = target := Except.ok.inj (f1.symm.trans ht)
  subst this
  obtain ⟨N, hN, hstep, hgood⟩ := exists_trotter (L := |t| * (Ms.map maxAbsEigenvalue).sum) t hm (allowed_pos hth)
  obtain ⟨h1, h2, h3⟩ := trotterWord_spec hH (t := t) hN rfl
  obtain ⟨gates, k1, k2, k3⟩ := stoq_word hn hH hm.le hprims (word := trotterWord Ms.length N t) fun x hx => by
    obtain ⟨h4, h5⟩ := h1 x hx
    exact ⟨h4 b, .inl (by rw [h5]; exact hstep)⟩
  obtain ⟨δ, K, e1, e2, e3, e4⟩ := Metropolis.wins_exponential (cap := ((2 : ℝ) ^ 2 ^ n) ^ 2) (threshold := threshold)
    f2.unitary (stoq_source hn hH hm.le hprims hB hB1) (by positivity) hp.1 hp.2 (w := gates)
    ⟨gates.map fun v => [v], (flatten_singletons gates).symm, fun l hl => by
      obtain ⟨v, hv, rfl⟩ := List.mem_map.mp hl
      obtain ⟨r, r', h⟩ := k2 v hv
      exact ⟨r, r', Metropolis.one_ok_iff.mpr ⟨v, h, rfl⟩⟩⟩ (by
      unfold Metropolis.cost
      rw [overlap_congr f3 k3]
      exact h3.trans_lt hgood)
  refine ⟨δ, K, e1, e2, e3, ?_⟩
  intro c Cs hs hex C hC hD hCp hCr hCa hrate hTr k
  obtain ⟨b', hb, -, hb0⟩ := hs.ok.2.alive C hC
  have h5 := e4 C.annealingRate hrate k ⟨[], b'⟩ ⟨.nil, hb0 hrate⟩
  subst hCp hCa
  refine succeeds_of_wins (prop := C.proposal 0) (fun t => ?_) e2
    (by unfold Compiler.proposal; rw [hD, hCr]; exact h5)
  exact follows_of_post hD (hs.ok.2.dim C hC).2 hex (fun v hv => generated_good hval (by rw [← hD]; exact hv)) f2
    (compile_post hTr (hs.ok.1.wf.reseed t) hb)

/-! ## Examples -/

open scoped Matrix.Norms.L2Operator in
/-- The evolution under X + Z for the time 1 with steps up to 1/10, one term at a time: the Trotter formula with 1000
steps shows that the threshold 0.9999 can be reached. -/
example : ∃ H, Hamiltonian.Of (n := 1) [!![0, 1; 1, 0], !![1, 0; 0, -1]] H ∧ ∃ δ : ℝ, 0 < δ ∧ ∀ rng : Rng,
    ENNReal.ofReal δ ≤ Rng.tapes 2 {t' | StoqSucceeds (n := 1) [!![0, 1; 1, 0], !![1, 0; 0, -1]] 1 (some (9999 / 10000))
      (H.compileStoqSequence 0 1 (1 / 10) (some (9999 / 10000)) false ((Client.start rng).world.reseed t'))} := by
  obtain ⟨H, hH⟩ := example_xz
  have hX : maxAbsEigenvalue !![(0 : ℂ), 1; 1, 0] = 1 := by
    rw [maxAbsEigenvalue_eq (by norm_num) (hH.herm _ (by simp)).1]
    refine CStarRing.norm_of_mem_unitary (mem_unitaryGroup_iff.mpr ?_)
    ext i j; fin_cases i <;> fin_cases j <;> simp [Matrix.mul_apply, star_apply]
  have hZ : maxAbsEigenvalue !![(1 : ℂ), 0; 0, -1] = 1 := by
    rw [maxAbsEigenvalue_eq (by norm_num) (hH.herm _ (by simp)).1]
    refine CStarRing.norm_of_mem_unitary (mem_unitaryGroup_iff.mpr ?_)
    ext i j; fin_cases i <;> fin_cases j <;> simp [Matrix.mul_apply, star_apply]
  have hlen := hH.length
  obtain ⟨δ, h1, h2⟩ := C79_trotter_possible le_rfl hH (t := 1) (m := 1 / 10) (by norm_num)
    (threshold := some (9999 / 10000)) false (N := 1000) (by norm_num) (by norm_num) (by simp) (L := 2)
    (by simp only [List.map_cons, List.map_nil, hX, hZ]; norm_num) (by
      have he : Real.exp (2 / (1000 : ℕ)) ≤ 3 :=
        (Real.exp_le_exp.mpr (by norm_num : (2 : ℝ) / (1000 : ℕ) ≤ 1)).trans (by linarith [Real.exp_one_lt_d9])
      have h0 := Real.exp_pos (2 / (1000 : ℕ))
      have : (2 : ℝ) ^ 2 * Real.exp (2 / (1000 : ℕ)) / (1000 : ℕ) ≤ 12 / 1000 := by
        rw [div_le_div_iff₀ (by norm_num) (by norm_num)]
        push_cast at he ⊢
        linarith
      calc ((2 : ℝ) ^ 2 * Real.exp (2 / (1000 : ℕ)) / (1000 : ℕ)) ^ 2 / 2 ≤ (12 / 1000) ^ 2 / 2 := by gcongr
        _ < 1 - 9999 / 10000 := by norm_num) (B := 2) (by norm_num) (by
      rw [C50_single, List.length_map, List.length_range, hlen]; rfl)
  exact ⟨H, hH, δ, h1, fun rng => h2 (.start rng) (by simp [Client.start])⟩

end Stoq
