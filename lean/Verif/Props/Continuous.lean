import Verif.Proofs.HitsLayers
import Verif.Props.Universal
import Verif.Props.Gms

/-!
# C77: success with gates that have parameters

C69 and C76 bound the probability of success for gates without parameters, whose distribution is discrete.  Here the
gates may depend continuously on parameters, as the ones of the examples do: a given sequence of gates then has
probability zero, but the random gates come arbitrarily close to it with positive probability.
-/

namespace Stoq

open MeasureTheory Compiler Matrix

/-! ## Gates that can be drawn -/

theorem chosenBy_exists {n : ℕ} {p : List ℝ} (h : Rng.ValidP n p) {i : ℕ} (hi : i < n)
    (hpos : ∀ x, p[i]? = some x → 0 < x) : ∃ u : Set.Ico (0 : ℝ) 1, ChosenBy p u i := by
  have hi' : i < p.length := by rw [h.len]; exact hi
  have hs := h.sum_pos
  have hx := hpos _ (List.getElem?_eq_getElem hi')
  have h0 : 0 ≤ (p.take i).sum := List.sum_nonneg fun x hx => h.nonneg x (List.mem_of_mem_take hx)
  have h1 : (p.take (i + 1)).sum = (p.take i).sum + p[i] := by
    rw [List.take_succ_eq_append_getElem hi', List.sum_append, List.sum_singleton]
  have h2 : (p.take (i + 1)).sum ≤ p.sum := by
    conv_rhs => rw [← List.take_append_drop (i + 1) p, List.sum_append]
    have : 0 ≤ (p.drop (i + 1)).sum := List.sum_nonneg fun x hx => h.nonneg x (List.mem_of_mem_drop hx)
    linarith
  refine ⟨⟨(p.take i).sum / p.sum, div_nonneg h0 hs.le, ?_⟩, hi', ?_, ?_⟩
  · rw [div_lt_one hs]; linarith
  · exact (div_mul_cancel₀ _ hs.ne').ge
  · change (p.take i).sum / p.sum * p.sum < _
    rw [div_mul_cancel₀ _ hs.ne', h1]
    linarith

/-- C77: every gate that can be drawn in the sense of the specification is drawn for suitable random numbers, also when
the primitives have weights. -/
theorem C77_can_draw {n : ℕ} {prims : List Primitive} {probs : Option (List ℝ)} (hc : ChoiceOk prims probs) {v : EntryVal}
    (h : CanDraw n prims probs v) : Rng.Possible (createRandomEntryVal 0 (2 ^ n) prims probs) v := by
  obtain ⟨p, ⟨i, hi, hw⟩, hu, hq, h1, h2, h3⟩ := h
  have hlt : i < (placeable prims).length := (List.getElem?_eq_some_iff.mp hi).1
  unfold ChoiceOk at hc
  rw [filter_usable] at hc
  have hch : Rng.Possible (Rng.choiceOpt (placeable prims).length probs) i := by
    cases probs with
    | none => exact ⟨[], _, Rng.inRange_cons.mpr ⟨hlt, Rng.inRange_nil⟩, Rng.Yields.choice (by omega) i⟩
    | some ps =>
      obtain ⟨u, hu⟩ := chosenBy_exists hc hlt (hw ps rfl)
      exact ⟨[u], [], Rng.inRange_nil, Rng.Yields.choiceP hc hu⟩
  have hus : ∃ us, p.DrawsUnitary 0 us v.unitary := by
    unfold Primitive.DrawsUnitary
    rcases hpu : p.unitary with u0 | pu
    · rw [hpu] at hu; exact ⟨[], rfl, hu⟩
    · rw [hpu] at hu
      obtain ⟨vs, g1, g2, g3⟩ := hu
      obtain ⟨us, g4, g5⟩ := atFraction_list pu.parameters vs g1 g2
      exact ⟨us, g4, by rw [g5]; exact g3⟩
  have hns : ∃ ns, Rng.InRange ns ∧ p.DrawsQubits n ns v.applyTo := by
    unfold Primitive.Acts at hq
    unfold Primitive.DrawsQubits
    rcases hpl : p.allowedApplyTo with _ | lists
    · rw [hpl] at hq
      have hc := Rng.card_perm_prefix (List.nodup_range (n := n)) h1 fun x hx => List.mem_range.mpr (hq.2 x hx)
      have hpos : 0 < Nat.card {l' : List ℕ // l'.Perm (List.range n) ∧ v.applyTo <+: l'} := by
        rw [hc]; exact Nat.factorial_pos _
      obtain ⟨⟨order, ho1, ho2⟩⟩ := (Nat.card_pos_iff.mp hpos).1
      obtain ⟨ns, ⟨g1, g2⟩, -⟩ := Rng.shuffle_unique (List.nodup_range (n := n)) ho1
      rw [List.length_range] at g1
      exact ⟨ns, g1.2, g1, order, g2, ho2⟩
    · rw [hpl] at hq
      obtain ⟨j, hj, hjq⟩ := List.getElem_of_mem hq
      exact ⟨_, Rng.inRange_cons.mpr ⟨hj, Rng.inRange_nil⟩, j, rfl, by rw [List.getElem?_eq_getElem hj, hjq]⟩
  obtain ⟨us0, ns0, hr0, hy0⟩ := hch
  obtain ⟨us, hus⟩ := hus
  obtain ⟨ns, hr, hns⟩ := hns
  refine ⟨_, _, Rng.inRange_append.mpr ⟨hr0, hr⟩, createRandomEntryVal_yields hy0 hi hus
    (by rw [show intLog2 (2 ^ n) = n from log2_pow n]; exact hns) h1 h2 h3⟩

/-! ## The probability of success -/

theorem succeeds_of_wins {B n : ℕ} {C : Compiler} {target : Unitary} {threshold : Option ℝ} {m : ℕ}
    {prop : List EntryVal → PyM Rng (List EntryVal)} {b : ℝ} {w : World} {M : PyM World CompilerResult}
    (h : ∀ t, FollowsWalk n C target threshold m prop b (w.reseed t) (M (w.reseed t))) {δ : ℝ} {k : ℕ} (hδ : δ ≤ 1)
    (hw : Metropolis.Wins B n (target.matrix.toMatrix (2 ^ n)) threshold C.annealingRate (((2 : ℝ) ^ 2 ^ n) ^ 2) prop m
      ⟨[], b⟩ (1 - (1 - δ) ^ k)) :
    1 - ENNReal.ofReal ((1 - δ) ^ k) ≤ Rng.tapes B {t | Succeeds n target threshold (M (w.reseed t))} := by
  rw [← ENNReal.ofReal_one, ← ENNReal.ofReal_sub _ (pow_nonneg (by linarith) _)]
  refine hw.prob.trans (measure_mono fun t ht => ?_)
  obtain ⟨tr, r', hrun, hgood⟩ := ht (Rng.start t) (Rng.rest_start t)
  have hf := h t
  unfold FollowsWalk at hf
  rw [show (w.reseed t).rng = Rng.start t from rfl, Int.toNat_natCast, hrun] at hf
  obtain ⟨-, R, hR, hc, ⟨undo, hv⟩, -⟩ := hf
  refine ⟨_, _, ⟨R, hR, rfl, _, hv, rfl⟩, ?_⟩
  have hg : (tr.getLast?.getD ⟨[], b⟩).gates = (tr.map Metropolis.State.gates).getLast?.getD [] := by
    rw [List.getLast?_map]
    cases tr.getLast? <;> rfl
  change Metropolis.GoodEnough threshold (1 - overlap _ (circuit n (tr.getLast?.getD ⟨[], b⟩).gates))
  rw [hg]
  exact hgood

/-- C77: if some circuit of gates that can be drawn is strictly better than required, then the probability that
`compile` finds a good enough sequence within `m` steps is at least `1 - (1 - δ) ^ ⌊m / K⌋`, with a positive `δ`.
The gates may depend continuously on parameters.  The numbers `δ` and `K` do not depend on the history of the session,
the annealing value reached or the annealing rate. -/
theorem C77_compile_succeeds {n : ℕ} {prims : List Primitive} {probs : Option (List ℝ)} {p : ℝ}
    (hprims : ∀ q ∈ prims, q.Valid n) (hcont : ∀ q ∈ prims, q.Continuous) (hch : ChoiceOk prims probs)
    (hp : 0 < p ∧ p ≤ 1) {target : Unitary} (ht : target.Exact (2 ^ n)) {threshold : Option ℝ} {w : List EntryVal}
    (hw : ∀ v ∈ w, CanDraw n prims probs v)
    (hgood : 1 - overlap (target.matrix.toMatrix (2 ^ n)) (circuit n w) < Metropolis.allowed threshold) {B : ℕ}
    (hB : n ≤ B) (hB1 : prims.length ≤ B)
    (hB2 : ∀ q ∈ prims, ∀ lists, q.allowedApplyTo = some lists → lists.length ≤ B) :
    ∃ (δ : ℝ) (K : ℕ), 0 < δ ∧ δ ≤ 1 ∧ 0 < K ∧ ∀ {c : Client} {Cs : List Compiler}, Session 0 c Cs →
      (∀ x ∈ c.world.entries, x.toVal.Exact) → ∀ {C : Compiler}, C ∈ Cs → C.dimension = 2 ^ n → C.primitives = prims →
      C.probabilities = probs → C.appendProbability = p → 0 ≤ C.annealingRate → C.Truthy → ∀ m : ℕ,
        1 - ENNReal.ofReal ((1 - δ) ^ (m / K)) ≤ Rng.tapes B {t | Succeeds n target threshold
          (C.compile 0 target threshold m (c.world.reseed t))} := by
  obtain ⟨δ, K, h1, h2, h3, h4⟩ := Metropolis.wins_exponential (cap := ((2 : ℝ) ^ 2 ^ n) ^ 2) ht.unitary
    (Metropolis.one_source hch hprims hcont hB hB1 hB2) (by positivity) hp.1 hp.2 (w := w)
    ⟨w.map fun v => [v], (flatten_singletons w).symm, fun l hl => by
      obtain ⟨v, hv, rfl⟩ := List.mem_map.mp hl
      exact ((C77_can_draw hch (hw v hv)).bind (k := fun v => Pure.pure [v]) (Rng.Possible.pure [v])).result⟩ hgood
  refine ⟨δ, K, h1, h2, h3, ?_⟩
  intro c Cs hs hex C hC hD hCp hCr hCa hrate hTr m
  obtain ⟨b, hb, -, hb0⟩ := hs.ok.2.alive C hC
  have h5 := h4 C.annealingRate hrate m ⟨[], b⟩ ⟨.nil, hb0 hrate⟩
  subst hCp hCr hCa
  refine succeeds_of_wins (prop := C.proposal 0) (fun t => ?_) h2 (by unfold Compiler.proposal; rw [hD]; exact h5)
  exact follows_of_post hD (hs.ok.2.dim C hC).2 hex (fun v hv => generated_good hprims (by rw [← hD]; exact hv)) ht
    (compile_post hTr (hs.ok.1.wf.reseed t) hb)

/-- C77 for `compile_layered`, with layers instead of gates. -/
theorem C77_compileLayered_succeeds {n : ℕ} {counts : List (Primitive × ℤ)} {p : ℝ}
    (hprims : ∀ pc ∈ counts, pc.1.Valid n) (hcounts : ∀ pc ∈ counts, 0 ≤ pc.2)
    (hcont : ∀ pc ∈ counts, 0 < pc.2 → pc.1.allowedApplyTo ≠ some [] ∧ pc.1.Continuous) (hp : 0 < p ∧ p ≤ 1)
    {target : Unitary} (ht : target.Exact (2 ^ n)) {threshold : Option ℝ} {layers : List (List EntryVal)}
    (hw : ∀ l ∈ layers, CanDrawLayer n counts l)
    (hgood : 1 - overlap (target.matrix.toMatrix (2 ^ n)) (circuit n layers.flatten) < Metropolis.allowed threshold)
    {B : ℕ} (hB : n ≤ B) (hB1 : 1 ≤ B)
    (hB2 : ∀ pc ∈ counts, ∀ lists, pc.1.allowedApplyTo = some lists → lists.length ≤ B)
    (hB3 : (counts.map fun pc => pc.2.toNat).sum ≤ B) :
    ∃ (δ : ℝ) (K : ℕ), 0 < δ ∧ δ ≤ 1 ∧ 0 < K ∧ ∀ {c : Client} {Cs : List Compiler}, Session 0 c Cs →
      (∀ x ∈ c.world.entries, x.toVal.Exact) → ∀ {C : Compiler}, C ∈ Cs → C.dimension = 2 ^ n →
      C.appendProbability = p → 0 ≤ C.annealingRate → ∀ m : ℕ,
        1 - ENNReal.ofReal ((1 - δ) ^ (m / K)) ≤ Rng.tapes B {t | Succeeds n target threshold
          (C.compileLayered 0 target counts threshold m (c.world.reseed t))} := by
  have hl : ∀ l ∈ layers, Rng.Result
      (Metropolis.layer (fun p => createRandomEntryVal 0 (2 ^ n) [p] none) counts) l := by
    intro l hl
    obtain ⟨groups, h1, h2⟩ := hw l hl
    refine (Metropolis.layer_possible (Metropolis.groups_mono h1 fun pc hpc h0 v hv => ?_) h2).result
    refine C77_can_draw ?_ hv
    unfold ChoiceOk
    rw [filter_usable, show placeable [pc.1] = [pc.1] by simp [placeable, (hcont pc hpc h0).1]]
    exact Nat.one_pos
  obtain ⟨δ, K, h1, h2, h3, h4⟩ := Metropolis.wins_exponential (cap := ((2 : ℝ) ^ 2 ^ n) ^ 2) ht.unitary
    (Metropolis.layer_source hprims hcounts hcont hB hB1 hB2 hB3) (by positivity) hp.1 hp.2 ⟨layers, rfl, hl⟩ hgood
  refine ⟨δ, K, h1, h2, h3, ?_⟩
  intro c Cs hs hex C hC hD hCa hrate m
  obtain ⟨b, hb, -, hb0⟩ := hs.ok.2.alive C hC
  have h5 := h4 C.annealingRate hrate m ⟨[], b⟩ ⟨.nil, hb0 hrate⟩
  subst hCa
  refine succeeds_of_wins (prop := C.layeredProposal 0 counts) (fun t => ?_) h2
    (by unfold Compiler.layeredProposal; rw [hD]; exact h5)
  exact follows_of_post hD (hs.ok.2.dim C hC).2 hex
    (fun v hv => generatedLayer_good hprims (by rw [← hD]; exact hv)) ht (compileLayered_post (hs.ok.1.wf.reseed t) hb)

/-- C77: with a universal set of gates this holds for every target and every threshold below 1. -/
theorem C77_universal_succeeds {n : ℕ} {prims : List Primitive} {probs : Option (List ℝ)} {p : ℝ}
    (hprims : ∀ q ∈ prims, q.Valid n) (hcont : ∀ q ∈ prims, q.Continuous) (hch : ChoiceOk prims probs)
    (hp : 0 < p ∧ p ≤ 1) (hU : Universal n (CanDraw n prims probs)) {target : Unitary} (ht : target.Exact (2 ^ n))
    {threshold : Option ℝ} (hth : ∀ x, threshold = some x → x < 1) {B : ℕ} (hB : n ≤ B) (hB1 : prims.length ≤ B)
    (hB2 : ∀ q ∈ prims, ∀ lists, q.allowedApplyTo = some lists → lists.length ≤ B) :
    ∃ (δ : ℝ) (K : ℕ), 0 < δ ∧ δ ≤ 1 ∧ 0 < K ∧ ∀ {c : Client} {Cs : List Compiler}, Session 0 c Cs →
      (∀ x ∈ c.world.entries, x.toVal.Exact) → ∀ {C : Compiler}, C ∈ Cs → C.dimension = 2 ^ n → C.primitives = prims →
      C.probabilities = probs → C.appendProbability = p → 0 ≤ C.annealingRate → C.Truthy → ∀ m : ℕ,
        1 - ENNReal.ofReal ((1 - δ) ^ (m / K)) ≤ Rng.tapes B {t | Succeeds n target threshold
          (C.compile 0 target threshold m (c.world.reseed t))} := by
  obtain ⟨gates, g1, g2⟩ := hU _ ht.unitary (Metropolis.allowed threshold) (allowed_pos hth)
  exact C77_compile_succeeds hprims hcont hch hp ht g1 g2 hB hB1 hB2

/-! ## The parametrised gates of the library -/

theorem ParamUnitary.continuous_of_phase {pu : ParamUnitary} {d k : ℕ} (hd : pu.dimension = d)
    (hl : pu.parameters.length = k) {F : List ℝ → Matrix (Fin d) (Fin d) ℂ}
    (hF : ∀ i j, _root_.Continuous fun x : Fin k → ℝ => F (List.ofFn x) i j)
    (h : ∀ vs, pu.Admits vs → ∀ a, pu.parameterizedMatrix vs = .ok a → SamePhase (a.toMatrix d) (F vs)) :
    pu.Continuous := by
  subst hd
  intro vs hvs ε hε
  have hlen := hvs.1.trans hl
  subst hlen
  have h1 : ∀ i j : Fin pu.dimension, ∃ η > 0, ∀ y, dist y vs.get ≤ η → ‖F (List.ofFn y) i j - F vs i j‖ ≤ ε := by
    intro i j
    obtain ⟨η, h1, h2⟩ := Metric.continuous_iff.mp (hF i j) vs.get ε hε
    refine ⟨η / 2, by positivity, fun y hy => ?_⟩
    have := h2 y (by linarith)
    rw [dist_eq_norm, List.ofFn_get] at this
    exact this.le
  choose η h2 h3 using h1
  obtain ⟨η0, h4, h5⟩ : ∃ η0 > 0, ∀ i j, η0 ≤ η i j := by
    rcases isEmpty_or_nonempty (Fin pu.dimension) with he | he
    · exact ⟨1, one_pos, fun i => he.elim i⟩
    · refine ⟨Finset.univ.inf' Finset.univ_nonempty fun ij : Fin pu.dimension × Fin pu.dimension => η ij.1 ij.2, ?_, ?_⟩
      · exact (Finset.lt_inf'_iff _).mpr fun ij _ => h2 ij.1 ij.2
      · exact fun i j => Finset.inf'_le (fun ij : Fin pu.dimension × Fin pu.dimension => η ij.1 ij.2)
          (Finset.mem_univ (i, j))
  refine ⟨η0, h4, fun vs' hvs' hnear a a' ha ha' => ?_⟩
  obtain ⟨c, hc, e1⟩ := h vs hvs a ha
  obtain ⟨c', hc', e2⟩ := h vs' hvs' a' ha'
  have hc0 : c ≠ 0 := by
    intro h0; rw [h0, norm_zero] at hc; exact zero_ne_one hc
  refine ⟨c' / c, by rw [norm_div, hc, hc', div_one], fun i hi j hj => ?_⟩
  have e1 : a.val i j = c * F vs ⟨i, hi⟩ ⟨j, hj⟩ := congrFun (congrFun e1 ⟨i, hi⟩) ⟨j, hj⟩
  have e2 : a'.val i j = c' * F vs' ⟨i, hi⟩ ⟨j, hj⟩ := congrFun (congrFun e2 ⟨i, hi⟩) ⟨j, hj⟩
  rw [e1, e2, show c' * F vs' ⟨i, hi⟩ ⟨j, hj⟩ - c' / c * (c * F vs ⟨i, hi⟩ ⟨j, hj⟩) =
    c' * (F vs' ⟨i, hi⟩ ⟨j, hj⟩ - F vs ⟨i, hi⟩ ⟨j, hj⟩) by field_simp, norm_mul, hc', one_mul]
  have hle := hnear.length_eq
  have e3 : List.ofFn (fun k : Fin vs.length => vs'.get (k.cast hle)) = vs' :=
    List.ext_getElem (by simp [hle]) fun i _ _ => by simp
  have h6 := h3 ⟨i, hi⟩ ⟨j, hj⟩ (fun k : Fin vs.length => vs'.get (k.cast hle)) ?_
  · rwa [e3] at h6
  · refine ((dist_pi_le_iff h4.le).mpr fun k => ?_).trans (h5 _ _)
    rw [Real.dist_eq]
    exact hnear.get k.isLt (by rw [← hle]; exact k.isLt)

theorem ParamUnitary.continuous_of {pu : ParamUnitary} {d k : ℕ} (hd : pu.dimension = d)
    (hl : pu.parameters.length = k) {F : List ℝ → Matrix (Fin d) (Fin d) ℂ}
    (hF : ∀ i j, _root_.Continuous fun x : Fin k → ℝ => F (List.ofFn x) i j)
    (h : ∀ vs, pu.Admits vs → ∀ a, pu.parameterizedMatrix vs = .ok a → a.toMatrix d = F vs) : pu.Continuous :=
  ParamUnitary.continuous_of_phase hd hl hF fun vs hvs a ha => ⟨1, norm_one, by rw [one_smul]; exact h vs hvs a ha⟩

theorem continuous_rot {ι : Type} [DecidableEq ι] {k : ℕ} {P : (Fin k → ℝ) → Matrix ι ι ℂ} {θ : (Fin k → ℝ) → ℝ}
    (hP : ∀ i j, Continuous fun x => P x i j) (hθ : Continuous θ) (i j : ι) :
    Continuous fun x => Gate.rot (P x) (θ x) i j := by
  unfold Gate.rot
  simp only [Matrix.sub_apply, Matrix.smul_apply, smul_eq_mul]
  refine Continuous.sub (Continuous.mul ?_ continuous_const) (Continuous.mul (Continuous.mul continuous_const ?_) (hP i j))
  · exact Complex.continuous_ofReal.comp (Real.continuous_cos.comp (hθ.div_const 2))
  · exact Complex.continuous_ofReal.comp (Real.continuous_sin.comp (hθ.div_const 2))

theorem rotationXY_continuous {xy : ParamUnitary} (h : ParamDefinitions.rotationXY 0 = .ok xy) : xy.Continuous := by
  have he := ParamDefinitions.rotationXY_eq 0
  rw [h] at he
  rw [Except.ok.inj he]
  refine ParamUnitary.continuous_of (d := 2) (k := 2) rfl rfl (F := fun vs => Gate.rot ((Real.cos (vs.getD 1 0) : ℂ) • Gate.X +
    (Real.sin (vs.getD 1 0) : ℂ) • Gate.Y) (vs.getD 0 0)) ?_ ?_
  · refine continuous_rot (fun i j => ?_) ?_
    · simp only [Matrix.add_apply, Matrix.smul_apply, smul_eq_mul, List.ofFn_succ, List.ofFn_zero,
        List.getD_cons_succ, List.getD_cons_zero]
      refine Continuous.add (Continuous.mul ?_ continuous_const) (Continuous.mul ?_ continuous_const)
      · exact Complex.continuous_ofReal.comp (Real.continuous_cos.comp (continuous_apply _))
      · exact Complex.continuous_ofReal.comp (Real.continuous_sin.comp (continuous_apply _))
    · simp only [List.ofFn_succ, List.getD_cons_zero]
      exact continuous_apply _
  · intro vs hvs a ha
    obtain ⟨θ, φ, rfl⟩ := List.length_eq_two.mp hvs.1
    obtain ⟨u, h1, h2, -⟩ := C27_rphi θ φ
    change (do return (← UnitaryDefinitions.rphi 0 θ φ).getMatrix) = _ at ha
    rw [h1] at ha
    cases ha
    exact h2.2.2

theorem rotationXYZ_continuous {r : ParamUnitary} (h : ParamDefinitions.rotationXYZ 0 = .ok r) : r.Continuous := by
  have he := ParamDefinitions.rotationXYZ_eq 0
  rw [h] at he
  rw [Except.ok.inj he]
  refine ParamUnitary.continuous_of (d := 2) (k := 3) rfl rfl (F := fun vs =>
    Gate.rot Gate.Z (vs.getD 0 0) * Gate.rot Gate.Y (vs.getD 1 0) * Gate.rot Gate.Z (vs.getD 2 0)) ?_ ?_
  · intro i j
    simp only [Matrix.mul_apply, List.ofFn_succ, List.ofFn_zero, List.getD_cons_succ, List.getD_cons_zero]
    refine continuous_finsetSum _ fun a _ => Continuous.mul (continuous_finsetSum _ fun b _ => Continuous.mul ?_ ?_) ?_
    all_goals exact continuous_rot (fun _ _ => continuous_const) (continuous_apply _) _ _
  · intro vs hvs a ha
    obtain ⟨α, β, γ, rfl⟩ := List.length_eq_three.mp hvs.1
    cases ha
    exact (UnitaryDefinitions.rotationXYZMatrix_is α β γ).2.2

theorem xx_continuous {ms : ParamUnitary} (h : ParamDefinitions.xx 0 = .ok ms) : ms.Continuous := by
  have he := ParamDefinitions.xx_eq 0
  rw [h] at he
  rw [Except.ok.inj he]
  refine ParamUnitary.continuous_of (d := 4) (k := 1) rfl rfl (F := fun vs => Gate.rot Gate.XX (2 * vs.getD 0 0)) ?_ ?_
  · refine continuous_rot (fun i j => continuous_const) ?_
    simp only [List.ofFn_succ, List.getD_cons_zero]
    exact continuous_const.mul (continuous_apply _)
  · intro vs hvs a ha
    obtain ⟨θ, rfl⟩ := List.length_eq_one_iff.mp hvs.1
    obtain ⟨u, h1, h2, -⟩ := C27_xx θ
    change (do return (← UnitaryDefinitions.xx 0 θ).getMatrix) = _ at ha
    rw [h1] at ha
    cases ha
    exact h2.2.2

open scoped Matrix.Norms.L2Operator in
theorem gms_continuous {n : ℕ} {ms : ParamUnitary} (h : ParamDefinitions.gms 0 n = .ok ms) : ms.Continuous := by
  have he := ParamDefinitions.gms_eq 0 n
  rw [h] at he
  rw [Except.ok.inj he]
  refine ParamUnitary.continuous_of (d := 2 ^ n) (k := 1) rfl rfl (F := fun vs => Gate.GMS n (vs.getD 0 0)) ?_ ?_
  · intro i j
    refine Continuous.matrix_elem ?_ i j
    unfold Gate.GMS
    let _ : NormedAlgebra ℚ (Matrix (Fin (2 ^ n)) (Fin (2 ^ n)) ℂ) := NormedAlgebra.restrictScalars ℚ ℂ _
    have h1 : Continuous fun x : Fin 1 → ℝ => (-Complex.I * ((List.ofFn x).getD 0 0 : ℂ)) • Gate.pairSum n := by
      simp only [List.ofFn_succ, List.getD_cons_zero]
      exact (continuous_const.mul (Complex.continuous_ofReal.comp (continuous_apply _))).smul continuous_const
    exact NormedSpace.exp_continuous.comp h1
  · intro vs hvs a ha
    obtain ⟨θ, rfl⟩ := List.length_eq_one_iff.mp hvs.1
    obtain ⟨u, h1, h2, -⟩ := C28_gms n θ
    change (do return (← UnitaryDefinitions.gms 0 n θ).getMatrix) = _ at ha
    rw [h1] at ha
    cases ha
    exact h2.2.2

/-- C77: all parametrised gates of the library depend continuously on their parameters. -/
theorem C77_library_continuous : (∀ pu, ParamDefinitions.rotationXY 0 = .ok pu → pu.Continuous) ∧
    (∀ pu, ParamDefinitions.rotationXYZ 0 = .ok pu → pu.Continuous) ∧
    (∀ pu, ParamDefinitions.xx 0 = .ok pu → pu.Continuous) ∧
    ∀ n pu, ParamDefinitions.gms 0 n = .ok pu → pu.Continuous :=
  ⟨fun _ => rotationXY_continuous, fun _ => rotationXYZ_continuous, fun _ => xx_continuous, fun _ _ => gms_continuous⟩

/-! ## The gates of the examples -/

theorem Drawable.canDraw {n : ℕ} {prims prims' : List Primitive} {probs : Option (List ℝ)}
    (hs : ∀ q ∈ prims', q.allowedApplyTo ≠ some [] → Selectable prims probs q) {v : EntryVal}
    (h : Drawable (2 ^ n) prims' v) : CanDraw n prims probs v := by
  obtain ⟨q, hq, h1, h2, h3, h4, h5⟩ := h
  refine ⟨q, hs q hq ?_, h1, ?_, h3, h4, h5⟩
  · intro he
    rw [he] at h2
    simp at h2
  · unfold Primitive.Acts
    split at h2
    · next hl => simp only [hl]; exact h2
    · next hl =>
      rw [show intLog2 (2 ^ n) = n from log2_pow n] at h2
      simp only [hl]
      exact ⟨h3, h2⟩

theorem Universal.mono {n : ℕ} {P Q : EntryVal → Prop} (h : Universal n P) (hPQ : ∀ v, P v → Q v) : Universal n Q := by
  intro T hT ε hε
  obtain ⟨gates, h1, h2⟩ := h T hT ε hε
  exact ⟨gates, fun v hv => hPQ v (h1 v hv), h2⟩

/-- C77: `rotation_xy` on every qubit and `xx` on pairs that join all qubits are universal, whatever the weights are, if
they are positive. -/
theorem C77_native_universal {n : ℕ} {prims : List Primitive} {probs : Option (List ℝ)} {xy ms : ParamUnitary}
    (hxy : ParamDefinitions.rotationXY 0 = .ok xy) (hms : ParamDefinitions.xx 0 = .ok ms)
    (hprims : ∀ p ∈ prims, p.Valid n)
    (h1 : ∀ i < n, ∃ p, Selectable prims probs p ∧ p.unitary = .inr xy ∧ p.Acts n [i])
    (h2 : Connected n fun a b => ∃ p, Selectable prims probs p ∧ p.unitary = .inr ms ∧ p.Acts n [a, b]) :
    Universal n (CanDraw n prims probs) := by
  classical
  have hmem : ∀ p, Selectable prims probs p → p ∈ prims := by
    rintro p ⟨i, hi, -⟩
    exact (List.mem_filter.mp (List.mem_of_getElem? hi)).1
  refine (C76_native_universal (prims := prims.filter fun p => Selectable prims probs p) hxy hms ?_ ?_ ?_).mono
    fun v hv => hv.canDraw fun q hq _ => of_decide_eq_true (List.mem_filter.mp hq).2
  · exact fun p hp => hprims p (List.mem_filter.mp hp).1
  · intro i hi
    obtain ⟨p, a1, a2⟩ := h1 i hi
    exact ⟨p, List.mem_filter.mpr ⟨hmem p a1, decide_eq_true a1⟩, a2⟩
  · intro i hi j hj
    refine Relation.ReflTransGen.mono ?_ _ _ (h2 i hi j hj)
    rintro a b (⟨p, a1, a2⟩ | ⟨p, a1, a2⟩)
    · exact Or.inl ⟨p, List.mem_filter.mpr ⟨hmem p a1, decide_eq_true a1⟩, a2⟩
    · exact Or.inr ⟨p, List.mem_filter.mpr ⟨hmem p a1, decide_eq_true a1⟩, a2⟩

theorem native_valid {n : ℕ} (hn : 2 ≤ n) {xy ms : ParamUnitary} (hxy : ParamDefinitions.rotationXY 0 = .ok xy)
    (hms : ParamDefinitions.xx 0 = .ok ms) : ∀ q ∈ ([⟨.inr xy, none⟩, ⟨.inr ms, none⟩] : List Primitive), q.Valid n := by
  intro q hq
  simp only [List.mem_cons, List.not_mem_nil, or_false] at hq
  rcases hq with rfl | rfl
  · exact rotationXY_valid (by omega) hxy
  · exact xx_valid hn hms

theorem native_continuous {xy ms : ParamUnitary} (hxy : ParamDefinitions.rotationXY 0 = .ok xy)
    (hms : ParamDefinitions.xx 0 = .ok ms) : ∀ q ∈ ([⟨.inr xy, none⟩, ⟨.inr ms, none⟩] : List Primitive), q.Continuous := by
  intro q hq
  simp only [List.mem_cons, List.not_mem_nil, or_false] at hq
  rcases hq with rfl | rfl
  · exact rotationXY_continuous hxy
  · exact xx_continuous hms

/-- C77: the compiler of the examples, with `rotation_xy` and `xx` on any qubits and positive weights, finds every target
on two or more qubits up to every threshold below 1 with a probability that tends to one exponentially with the number
of steps. -/
theorem C77_native_succeeds {n : ℕ} (hn : 2 ≤ n) {xy ms : ParamUnitary} (hxy : ParamDefinitions.rotationXY 0 = .ok xy)
    (hms : ParamDefinitions.xx 0 = .ok ms) {probs : Option (List ℝ)}
    (hch : ∀ ps, probs = some ps → Rng.ValidP 2 ps ∧ ∀ x ∈ ps, 0 < x) {p : ℝ} (hp : 0 < p ∧ p ≤ 1) {target : Unitary}
    (ht : target.Exact (2 ^ n)) {threshold : Option ℝ} (hth : ∀ x, threshold = some x → x < 1) {B : ℕ} (hB : n ≤ B) :
    ∃ (δ : ℝ) (K : ℕ), 0 < δ ∧ δ ≤ 1 ∧ 0 < K ∧ ∀ {c : Client} {Cs : List Compiler}, Session 0 c Cs →
      (∀ x ∈ c.world.entries, x.toVal.Exact) → ∀ {C : Compiler}, C ∈ Cs → C.dimension = 2 ^ n →
      C.primitives = [⟨.inr xy, none⟩, ⟨.inr ms, none⟩] → C.probabilities = probs → C.appendProbability = p →
      0 ≤ C.annealingRate → C.Truthy → ∀ m : ℕ,
        1 - ENNReal.ofReal ((1 - δ) ^ (m / K)) ≤ Rng.tapes B {t | Succeeds n target threshold
          (C.compile 0 target threshold m (c.world.reseed t))} := by
  have hpl : placeable ([⟨.inr xy, none⟩, ⟨.inr ms, none⟩] : List Primitive) = [⟨.inr xy, none⟩, ⟨.inr ms, none⟩] := by
    simp [placeable]
  have hsel : ∀ (i : ℕ) (q : Primitive), ([⟨.inr xy, none⟩, ⟨.inr ms, none⟩] : List Primitive)[i]? = some q →
      Selectable [⟨.inr xy, none⟩, ⟨.inr ms, none⟩] probs q := fun i q hi => ⟨i, by rw [hpl]; exact hi,
    fun ps hps x hx => (hch ps hps).2 x (List.mem_of_getElem? hx)⟩
  refine C77_universal_succeeds (native_valid hn hxy hms) (native_continuous hxy hms) ?_ hp ?_ ht hth hB
    (by simpa using hn.trans hB) ?_
  · unfold ChoiceOk
    rw [filter_usable, hpl]
    cases probs with
    | none => norm_num
    | some ps => exact (hch ps rfl).1
  · exact C77_native_universal hxy hms (native_valid hn hxy hms)
      (fun i hi => ⟨_, hsel 0 _ rfl, rfl, acts_default (by simp) (by simpa using hi)⟩)
      (connected_all fun i hi j hj hij => ⟨_, hsel 1 _ rfl, rfl, acts_default (by simpa using hij) (by simp [hi, hj])⟩)
  · intro q hq lists hl
    simp only [List.mem_cons, List.not_mem_nil, or_false] at hq
    rcases hq with rfl | rfl <;> cases hl

/-! ## Layers of the gates of the examples -/

theorem circuit_identities {n : ℕ} {l : List EntryVal} (h : ∀ v ∈ l, v.op n = 1) : circuit n l = 1 := by
  induction l with
  | nil => rfl
  | cons v l ih =>
    rw [circuit, ih fun x hx => h x (List.mem_cons_of_mem _ hx), h v List.mem_cons_self, one_mul]

/-- The primitive can be drawn as a gate without effect. -/
def Primitive.Idle (n : ℕ) (q : Primitive) : Prop := ∃ v, CanDraw n [q] none v ∧ v.op n = 1

/-- C77: layers in which all gates but one can be without effect are as good as single gates. -/
theorem C77_layers_universal {n : ℕ} {counts : List (Primitive × ℤ)} (hidle : ∀ pc ∈ counts, 0 < pc.2 → pc.1.Idle n)
    (hU : Universal n fun v => ∃ pc ∈ counts, 0 < pc.2 ∧ CanDraw n [pc.1] none v) :
    ∀ T ∈ Matrix.unitaryGroup (Fin (2 ^ n)) ℂ, ∀ ε > 0, ∃ layers : List (List EntryVal),
      (∀ l ∈ layers, CanDrawLayer n counts l) ∧ 1 - overlap T (circuit n layers.flatten) < ε := by
  have hrest : ∀ counts : List (Primitive × ℤ), (∀ pc ∈ counts, 0 < pc.2 → pc.1.Idle n) → ∃ groups,
      Grouped (fun p v => CanDraw n [p] none v) counts groups ∧ ∀ v ∈ groups.flatten, v.op n = 1 := by
    intro counts h
    induction counts with
    | nil => exact ⟨[], .nil, by simp⟩
    | cons pc counts ih =>
      obtain ⟨groups, h1, h2⟩ := ih fun x hx => h x (List.mem_cons_of_mem _ hx)
      by_cases h0 : 0 < pc.2
      · obtain ⟨v, hv, hv1⟩ := h pc List.mem_cons_self h0
        refine ⟨List.replicate pc.2.toNat v :: groups, .cons ⟨List.length_replicate, fun x hx => ?_⟩ h1, fun x hx => ?_⟩
        · rw [List.eq_of_mem_replicate hx]; exact hv
        · rw [List.flatten_cons] at hx
          rcases List.mem_append.mp hx with hx | hx
          · rw [List.eq_of_mem_replicate hx]; exact hv1
          · exact h2 x hx
      · exact ⟨[] :: groups, .cons ⟨by rw [Int.toNat_of_nonpos (by omega)]; rfl, by simp⟩ h1, by simpa using h2⟩
  have hone : ∀ counts : List (Primitive × ℤ), (∀ pc ∈ counts, 0 < pc.2 → pc.1.Idle n) → ∀ v,
      (∃ pc ∈ counts, 0 < pc.2 ∧ CanDraw n [pc.1] none v) → ∃ groups,
      Grouped (fun p v => CanDraw n [p] none v) counts groups ∧ circuit n groups.flatten = circuit n [v] := by
    intro counts h v hv
    induction counts with
    | nil => obtain ⟨pc, hpc, -⟩ := hv; cases hpc
    | cons pc counts ih =>
      obtain ⟨pc', hpc', h0, hd⟩ := hv
      rcases List.mem_cons.mp hpc' with rfl | hmem
      · obtain ⟨groups, h1, h2⟩ := hrest counts fun x hx => h x (List.mem_cons_of_mem _ hx)
        obtain ⟨w, hw, hw1⟩ := h pc' List.mem_cons_self h0
        refine ⟨(v :: List.replicate (pc'.2.toNat - 1) w) :: groups, .cons ⟨?_, fun x hx => ?_⟩ h1, ?_⟩
        · rw [List.length_cons, List.length_replicate]; omega
        · rcases List.mem_cons.mp hx with rfl | hx
          · exact hd
          · rw [List.eq_of_mem_replicate hx]; exact hw
        · rw [List.flatten_cons, List.cons_append, circuit, circuit_identities, circuit_singleton, one_mul]
          intro x hx
          rcases List.mem_append.mp hx with hx | hx
          · rw [List.eq_of_mem_replicate hx]; exact hw1
          · exact h2 x hx
      · obtain ⟨groups, h1, h2⟩ := ih (fun x hx => h x (List.mem_cons_of_mem _ hx)) ⟨pc', hmem, h0, hd⟩
        obtain ⟨g0, a1, a2⟩ := hrest [pc] fun x hx => h x (by rw [List.mem_singleton.mp hx]; exact List.mem_cons_self)
        cases a1 with
        | @cons _ gs _ groups' b1 b2 =>
          cases b2
          refine ⟨gs :: groups, .cons b1 h1, ?_⟩
          rw [List.flatten_cons, circuit_append, h2, circuit_identities (l := gs) fun x hx => a2 x (by simpa using hx), mul_one]
  intro T hT ε hε
  obtain ⟨gates, h1, h2⟩ := hU T hT ε hε
  have hlayers : ∀ gates : List EntryVal, (∀ v ∈ gates, ∃ pc ∈ counts, 0 < pc.2 ∧ CanDraw n [pc.1] none v) →
      ∃ layers : List (List EntryVal), (∀ l ∈ layers, CanDrawLayer n counts l) ∧
        circuit n layers.flatten = circuit n gates := by
    intro gates h
    induction gates with
    | nil => exact ⟨[], by simp, rfl⟩
    | cons v gates ih =>
      obtain ⟨layers, a1, a2⟩ := ih fun x hx => h x (List.mem_cons_of_mem _ hx)
      obtain ⟨groups, b1, b2⟩ := hone counts hidle v (h v List.mem_cons_self)
      refine ⟨groups.flatten :: layers, fun l hl => ?_, ?_⟩
      · rcases List.mem_cons.mp hl with rfl | hl
        · exact ⟨groups, b1, List.Perm.refl _⟩
        · exact a1 l hl
      · rw [List.flatten_cons, circuit_append, a2, b2, circuit_singleton, circuit]
  obtain ⟨layers, a1, a2⟩ := hlayers gates h1
  exact ⟨layers, a1, by rw [a2]; exact h2⟩

theorem selectable_single {q : Primitive} (h : q.allowedApplyTo ≠ some []) : Selectable [q] none q :=
  ⟨0, by simp [placeable, h], by simp⟩

theorem rotationXY_idle {n : ℕ} (hn : 1 ≤ n) {xy : ParamUnitary} (h : ParamDefinitions.rotationXY 0 = .ok xy) :
    (⟨.inr xy, none⟩ : Primitive).Idle n := by
  obtain ⟨⟨xy', e1, -, hrot⟩, -⟩ := C27_parameterized
  obtain rfl : xy' = xy := by rw [h] at e1; exact (Except.ok.inj e1).symm
  have hpi := Real.pi_pos
  obtain ⟨u, hu, h1, h2, -⟩ := hrot 0 0 (by simp [hpi.le]) (by simp [hpi.le])
  have he := ParamDefinitions.rotationXY_eq 0
  rw [h] at he
  have hpar : xy'.parameters = [⟨"theta", 0, 2 * Real.pi, true⟩, ⟨"phi", 0, 2 * Real.pi, true⟩] := by
    rw [Except.ok.inj he]
  refine ⟨⟨u, [0]⟩, ⟨_, selectable_single (by simp), ⟨[0, 0], by rw [hpar]; rfl, ?_, hu⟩,
    acts_default (by simp) (by simp; omega), by simp, h1.dim.symm, by simp⟩, ?_⟩
  · rw [hpar]
    intro qv hqv
    simp only [List.zip_cons_cons, List.zip_nil_right, List.mem_cons, List.not_mem_nil, or_false] at hqv
    rcases hqv with rfl | rfl <;> simp [hpi]
  · change embed n [0] (u.matrix.toMatrix 2) = 1
    rw [h2.2.2, Gate.rot_zero]
    exact embed_one (by simp) (by simp; omega)

theorem xx_idle {n : ℕ} (hn : 2 ≤ n) {ms : ParamUnitary} (h : ParamDefinitions.xx 0 = .ok ms) :
    (⟨.inr ms, none⟩ : Primitive).Idle n := by
  obtain ⟨-, -, ⟨ms', e1, -, hrot⟩⟩ := C27_parameterized
  obtain rfl : ms' = ms := by rw [h] at e1; exact (Except.ok.inj e1).symm
  have hpi := Real.pi_pos
  obtain ⟨u, hu, h1, h2, -⟩ := hrot 0 (by simp [hpi.le])
  have he := ParamDefinitions.xx_eq 0
  rw [h] at he
  have hpar : ms'.parameters = [⟨"theta", 0, 2 * Real.pi, true⟩] := by rw [Except.ok.inj he]
  refine ⟨⟨u, [0, 1]⟩, ⟨_, selectable_single (by simp), ⟨[0], by rw [hpar]; rfl, ?_, hu⟩,
    acts_default (by simp) (by simp; omega), by simp, h1.dim.symm, by simp⟩, ?_⟩
  · rw [hpar]
    intro qv hqv
    simp only [List.zip_cons_cons, List.zip_nil_right, List.mem_cons, List.not_mem_nil, or_false] at hqv
    rcases hqv with rfl
    simp [hpi]
  · change embed n [0, 1] (u.matrix.toMatrix 4) = 1
    rw [h2.2.2, mul_zero, Gate.rot_zero]
    exact embed_one (by simp) (by simp; omega)

/-- C77: so does `compile_layered`, with any positive numbers of the two gates in a layer. -/
theorem C77_native_layers_succeed {n : ℕ} (hn : 2 ≤ n) {xy ms : ParamUnitary}
    (hxy : ParamDefinitions.rotationXY 0 = .ok xy) (hms : ParamDefinitions.xx 0 = .ok ms) {a b : ℕ} (ha : 0 < a)
    (hb : 0 < b) {p : ℝ} (hp : 0 < p ∧ p ≤ 1) {target : Unitary} (ht : target.Exact (2 ^ n)) {threshold : Option ℝ}
    (hth : ∀ x, threshold = some x → x < 1) {B : ℕ} (hB : n ≤ B) (hB1 : a + b ≤ B) :
    ∃ (δ : ℝ) (K : ℕ), 0 < δ ∧ δ ≤ 1 ∧ 0 < K ∧ ∀ {c : Client} {Cs : List Compiler}, Session 0 c Cs →
      (∀ x ∈ c.world.entries, x.toVal.Exact) → ∀ {C : Compiler}, C ∈ Cs → C.dimension = 2 ^ n →
      C.appendProbability = p → 0 ≤ C.annealingRate → ∀ m : ℕ,
        1 - ENNReal.ofReal ((1 - δ) ^ (m / K)) ≤ Rng.tapes B {t | Succeeds n target threshold
          (C.compileLayered 0 target [(⟨.inr xy, none⟩, (a : ℤ)), (⟨.inr ms, none⟩, (b : ℤ))] threshold m
            (c.world.reseed t))} := by
  have hall : ∀ {Q : Primitive × ℤ → Prop}, Q (⟨.inr xy, none⟩, (a : ℤ)) → Q (⟨.inr ms, none⟩, (b : ℤ)) →
      ∀ pc ∈ ([(⟨.inr xy, none⟩, (a : ℤ)), (⟨.inr ms, none⟩, (b : ℤ))] : List (Primitive × ℤ)), Q pc := by
    intro Q h1 h2 pc hpc
    simp only [List.mem_cons, List.not_mem_nil, or_false] at hpc
    rcases hpc with rfl | rfl
    · exact h1
    · exact h2
  have hU : Universal n fun v => ∃ pc ∈ ([(⟨.inr xy, none⟩, (a : ℤ)), (⟨.inr ms, none⟩, (b : ℤ))] : List (Primitive × ℤ)),
      0 < pc.2 ∧ CanDraw n [pc.1] none v := by
    refine (C76_native_universal (prims := [⟨.inr xy, none⟩, ⟨.inr ms, none⟩]) hxy hms (native_valid hn hxy hms)
      (fun i hi => ⟨_, List.mem_cons_self, rfl, acts_default (by simp) (by simpa using hi)⟩)
      (connected_all fun i hi j hj hij => ⟨_, List.mem_cons_of_mem _ List.mem_cons_self, rfl,
        acts_default (by simpa using hij) (by simp [hi, hj])⟩)).mono fun v hv => ?_
    obtain ⟨q, hq, hv⟩ := hv
    have hd : CanDraw n [q] none v := Drawable.canDraw (prims' := [q])
      (fun q' hq' h' => by rw [List.mem_singleton.mp hq'] at h' ⊢; exact selectable_single h')
      ⟨q, List.mem_singleton_self _, hv⟩
    simp only [List.mem_cons, List.not_mem_nil, or_false] at hq
    rcases hq with rfl | rfl
    · exact ⟨_, List.mem_cons_self, Int.natCast_pos.mpr ha, hd⟩
    · exact ⟨_, List.mem_cons_of_mem _ List.mem_cons_self, Int.natCast_pos.mpr hb, hd⟩
  obtain ⟨layers, g1, g2⟩ := C77_layers_universal
    (hall (Q := fun pc => 0 < pc.2 → pc.1.Idle n) (fun _ => rotationXY_idle (by omega) hxy) fun _ => xx_idle hn hms) hU
    _ ht.unitary (Metropolis.allowed threshold) (allowed_pos hth)
  refine C77_compileLayered_succeeds (hall (rotationXY_valid (by omega) hxy) (xx_valid hn hms))
    (hall (Q := fun pc => 0 ≤ pc.2) (by simp) (by simp))
    (hall (Q := fun pc => 0 < pc.2 → pc.1.allowedApplyTo ≠ some [] ∧ pc.1.Continuous)
      (fun _ => ⟨by simp, rotationXY_continuous hxy⟩) fun _ => ⟨by simp, xx_continuous hms⟩) hp ht g1 g2 hB (by omega)
    (hall (Q := fun pc => ∀ lists, pc.1.allowedApplyTo = some lists → lists.length ≤ B) (by simp) (by simp)) (by simpa using hB1)

/-! ## Example -/

/-- C77: in a session that makes the compiler of the examples for three qubits, every target is found up to an overlap of
0.999 with probability at least 0.99, if enough steps are allowed. -/
example (rng : Rng) {target : Unitary} (ht : target.Exact (2 ^ 3)) : ∃ (c : Client) (C : Compiler) (m0 : ℕ),
    Session 0 c [C] ∧ c.world.rng = rng ∧ C.primitives.length = 2 ∧ ∀ m ≥ m0,
      1 - ENNReal.ofReal (1 / 100) ≤ Rng.tapes 3 {t | Succeeds 3 target (some (999 / 1000))
        (C.compile 0 target (some (999 / 1000)) m (c.world.reseed t))} := by
  obtain ⟨⟨xy, hxy, d1, -⟩, -, ⟨ms, hms, d2, -⟩⟩ := C27_parameterized
  have hs := Session.newCompiler 8 [⟨.inr xy, none⟩, ⟨.inr ms, none⟩] false none (1 / 2) 1
    (Session.start (τ := 0) rng) (new_compiler_ok false none (1 / 2) 1 (by norm_num) (by
      intro q hq
      simp only [List.mem_cons, List.not_mem_nil, or_false] at hq
      rcases hq with rfl | rfl <;> simp [Primitive.getDimension, d1, d2]) _)
  obtain ⟨δ, K, g1, g2, g3, g4⟩ := C77_native_succeeds (n := 3) (by norm_num) hxy hms (probs := none) (by simp)
    (p := 1 / 2) (by norm_num) ht (threshold := some (999 / 1000)) (by rintro x ⟨⟩; norm_num) (B := 3) le_rfl
  obtain ⟨m0, hm0⟩ := C69_enough_steps g1 g2 g3 (fun m => g4 hs (by simp [Client.start]) List.mem_cons_self rfl rfl rfl rfl
    zero_le_one ⟨by simp, by simp⟩ m) (ε := 1 / 100) (by norm_num)
  exact ⟨_, _, m0, hs, rfl, rfl, hm0⟩

end Stoq
