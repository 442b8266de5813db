import Verif.Proofs.LawGates
import Verif.Props.Verification

/-!
# C68: the probability of every outcome of a compilation

With independent uniform random numbers, the result of `compile` and `compile_layered` has exactly the distribution of
the Metropolis Markov chain.
-/

namespace Stoq

open MeasureTheory Compiler

/-- The call returns a result with these costs and a sequence of these gates. -/
def ReturnsGates (gates : List EntryVal) (costs : List ℝ) (out : Except PyErr CompilerResult × World) : Prop :=
  ∃ R, out.1 = .ok R ∧ R.costByStep = costs ∧ ∃ v, out.2.view R.sequence = some v ∧ v.entries = gates

/-- The world with a new source of random numbers. -/
def World.reseed (w : World) (t : Rng.Tape) : World := { w with rng := Rng.start t }

theorem World.WF.reseed {τ : Arith} {w : World} (h : w.WF τ) (t : Rng.Tape) : (w.reseed t).WF τ := ⟨h.entries, h.seqs⟩

/-- The last gates and all costs of a run from the empty list. -/
noncomputable def Metropolis.outcome (n : ℕ) (T : Matrix (Fin (2 ^ n)) (Fin (2 ^ n)) ℂ) (tr : List Metropolis.State) :
    List EntryVal × List ℝ :=
  ((tr.map Metropolis.State.gates).getLast?.getD [], tr.map fun st => Metropolis.cost n T st.gates)

theorem probability_of_follows {B n : ℕ} {C : Compiler} {target : Unitary} {threshold : Option ℝ} {m : ℤ}
    {prop : List EntryVal → PyM Rng (List EntryVal)} {law : List EntryVal → PMF (List EntryVal)} {b : ℝ}
    {w : World} {M : PyM World CompilerResult} (hlaw : ∀ g, Rng.HasLaw B (prop g) (law g))
    (h : ∀ t, FollowsWalk n C target threshold m prop b (w.reseed t) (M (w.reseed t)))
    (A : Set (List EntryVal × List ℝ)) :
    MeasurableSet {t | ∃ a ∈ A, ReturnsGates a.1 a.2 (M (w.reseed t))} ∧
    Rng.tapes B {t | ∃ a ∈ A, ReturnsGates a.1 a.2 (M (w.reseed t))} =
      ((Metropolis.runLaw n (target.matrix.toMatrix (2 ^ n)) threshold C.annealingRate (((2 : ℝ) ^ 2 ^ n) ^ 2) law
        m.toNat ⟨[], b⟩).map (Metropolis.outcome n (target.matrix.toMatrix (2 ^ n)))).toOuterMeasure A := by
  set T := target.matrix.toMatrix (2 ^ n)
  have hrun := Metropolis.run_law (n := n) (T := T) (threshold := threshold) (rate := C.annealingRate)
    (cap := ((2 : ℝ) ^ 2 ^ n) ^ 2) hlaw m.toNat ⟨[], b⟩
  have hp := hrun.probability (Metropolis.outcome n T ⁻¹' A)
  rw [PMF.toOuterMeasure_map_apply]
  have hset : {t | ∃ a ∈ A, ReturnsGates a.1 a.2 (M (w.reseed t))} = {t | ∃ tr ∈ Metropolis.outcome n T ⁻¹' A,
      (Metropolis.run n T threshold C.annealingRate (((2 : ℝ) ^ 2 ^ n) ^ 2) prop m.toNat ⟨[], b⟩ (Rng.start t)).1 =
        .ok tr} := by
    ext t
    have ht := h t
    unfold FollowsWalk at ht
    rw [show (w.reseed t).rng = Rng.start t from rfl] at ht
    obtain ⟨f, u, h1, -, -⟩ := hrun
    rw [h1] at ht
    simp only [Set.mem_ofPred_eq, h1, Except.ok.injEq, exists_eq_right']
    obtain ⟨-, R, hR, hc, ⟨undo, hv⟩, -⟩ := ht
    set tr := f (Rng.start t).rest
    have hg : (tr.getLast?.getD ⟨[], b⟩).gates = (tr.map Metropolis.State.gates).getLast?.getD [] := by
      rw [List.getLast?_map]
      cases tr.getLast? <;> rfl
    constructor
    · rintro ⟨⟨g, cs⟩, ha, R', hR', hc', v, hv', hg'⟩
      rw [hR] at hR'
      obtain rfl := Except.ok.inj hR'
      rw [hv] at hv'
      obtain rfl := Option.some.inj hv'
      have : Metropolis.outcome n T tr = (g, cs) := by
        unfold Metropolis.outcome
        rw [← hg, ← hc]
        exact Prod.ext hg' hc'
      rw [Set.mem_preimage, this]
      exact ha
    · intro ha
      exact ⟨_, ha, R, hR, hc, _, hv, hg⟩
  rw [hset]
  exact hp

/-- C68: the result of `compile` has exactly the distribution of the Metropolis chain whose new gates are drawn with
the distribution `law` of the specification. -/
theorem C68_compile_law {c : Client} {Cs : List Compiler} (hs : Session 0 c Cs) {C : Compiler} (hC : C ∈ Cs)
    (hex : ∀ x ∈ c.world.entries, x.toVal.Exact) {n : ℕ} (hD : C.dimension = 2 ^ n)
    (hprims : ∀ p ∈ C.primitives, p.Valid n) (hT : C.Truthy) (hch : ChoiceOk C.primitives C.probabilities)
    (hp : 0 ≤ C.appendProbability ∧ C.appendProbability ≤ 1) {target : Unitary} (ht : target.Exact (2 ^ n))
    {b : ℝ} (hb : c.world.annealing C = some b) {law : PMF EntryVal}
    (hlaw : IsGateLaw n C.primitives C.probabilities law) {B : ℕ} (hB : n ≤ B) (hB1 : C.primitives.length ≤ B)
    (hB2 : ∀ p ∈ C.primitives, ∀ lists, p.allowedApplyTo = some lists → lists.length ≤ B) (threshold : Option ℝ)
    (m : ℤ) (A : Set (List EntryVal × List ℝ)) :
    MeasurableSet {t | ∃ a ∈ A, ReturnsGates a.1 a.2 (C.compile 0 target threshold m (c.world.reseed t))} ∧
    Rng.tapes B {t | ∃ a ∈ A, ReturnsGates a.1 a.2 (C.compile 0 target threshold m (c.world.reseed t))} =
      ((Metropolis.runLaw n (target.matrix.toMatrix (2 ^ n)) threshold C.annealingRate (((2 : ℝ) ^ 2 ^ n) ^ 2)
        (Metropolis.proposeLaw C.appendProbability (law.map fun v => [v]) 1) m.toNat ⟨[], b⟩).map
          (Metropolis.outcome n (target.matrix.toMatrix (2 ^ n)))).toOuterMeasure A := by
  refine probability_of_follows (prop := C.proposal 0) (fun g => ?_) (fun t => ?_) A
  · refine Metropolis.propose_law hp.1 hp.2 (Metropolis.one_law ?_) 1 g
    rw [hD]
    exact createRandomEntryVal_law hch hprims hlaw hB hB1 hB2 0
  · exact follows_of_post hD (hs.ok.2.dim C hC).2 hex (fun v hv => generated_good hprims (by rw [← hD]; exact hv)) ht
      (compile_post hT (hs.ok.1.wf.reseed t) hb)

theorem single_gateLaw {n : ℕ} {p : Primitive} {law : PMF EntryVal} (hp : p.allowedApplyTo ≠ some [])
    (hl : p.IsLaw n law) : IsGateLaw n [p] none law := by
  unfold IsGateLaw
  rw [show placeable [p] = [p] by simp [placeable, hp]]
  refine ⟨PMF.pure (0 : Fin [p].length), fun _ => law, fun i => ?_, fun i => ?_,
    (PMF.pure_bind (0 : Fin [p].length) (fun _ => law)).symm⟩
  · obtain rfl : i = 0 := Subsingleton.elim (α := Fin 1) i 0
    simp
  · obtain rfl : i = 0 := Subsingleton.elim (α := Fin 1) i 0
    exact hl

/-- C68 for `compile_layered`. -/
theorem C68_compileLayered_law {c : Client} {Cs : List Compiler} (hs : Session 0 c Cs) {C : Compiler} (hC : C ∈ Cs)
    (hex : ∀ x ∈ c.world.entries, x.toVal.Exact) {n : ℕ} (hD : C.dimension = 2 ^ n)
    {counts : List (Primitive × ℤ)} (hprims : ∀ pc ∈ counts, pc.1.Valid n)
    (hp : 0 ≤ C.appendProbability ∧ C.appendProbability ≤ 1) {target : Unitary} (ht : target.Exact (2 ^ n))
    {b : ℝ} (hb : c.world.annealing C = some b) {law : Primitive → PMF EntryVal}
    (hlaw : ∀ pc ∈ counts, 0 < pc.2 → pc.1.allowedApplyTo ≠ some [] ∧ pc.1.IsLaw n (law pc.1)) {B : ℕ} (hB : n ≤ B)
    (hB1 : 1 ≤ B) (hB2 : ∀ pc ∈ counts, ∀ lists, pc.1.allowedApplyTo = some lists → lists.length ≤ B)
    (hB3 : (counts.map fun pc => pc.2.toNat).sum ≤ B) (threshold : Option ℝ) (m : ℤ)
    (A : Set (List EntryVal × List ℝ)) :
    MeasurableSet {t | ∃ a ∈ A, ReturnsGates a.1 a.2
      (C.compileLayered 0 target counts threshold m (c.world.reseed t))} ∧
    Rng.tapes B {t | ∃ a ∈ A, ReturnsGates a.1 a.2 (C.compileLayered 0 target counts threshold m (c.world.reseed t))} =
      ((Metropolis.runLaw n (target.matrix.toMatrix (2 ^ n)) threshold C.annealingRate (((2 : ℝ) ^ 2 ^ n) ^ 2)
        (Metropolis.proposeLaw C.appendProbability (Metropolis.layerLaw law counts)
          ((counts.map Prod.snd).sum : ℤ).toNat) m.toNat ⟨[], b⟩).map
          (Metropolis.outcome n (target.matrix.toMatrix (2 ^ n)))).toOuterMeasure A := by
  refine probability_of_follows (prop := C.layeredProposal 0 counts) (fun g => ?_) (fun t => ?_) A
  · refine Metropolis.propose_law hp.1 hp.2 (Metropolis.layer_law (fun pc hpc h0 => ?_) hB3) _ g
    obtain ⟨h1, h2⟩ := hlaw pc hpc h0
    rw [hD]
    have hpl : placeable [pc.1] = [pc.1] := by simp [placeable, h1]
    refine createRandomEntryVal_law (prims := [pc.1]) ?_ ?_ ?_ hB hB1 ?_ 0
    · unfold ChoiceOk
      rw [filter_usable, hpl]
      exact Nat.one_pos
    · intro p hp; rw [List.mem_singleton.mp hp]; exact hprims pc hpc
    · exact single_gateLaw h1 h2
    · intro p hp; rw [List.mem_singleton.mp hp]; exact hB2 pc hpc
  · exact follows_of_post hD (hs.ok.2.dim C hC).2 hex
      (fun v hv => generatedLayer_good hprims (by rw [← hD]; exact hv)) ht (compileLayered_post (hs.ok.1.wf.reseed t) hb)

/-! ## Example -/

theorem zPrim_law : zPrim.IsLaw 1 (PMF.pure zGate) := by
  refine ⟨tinyPhase (Real.pi / 2), rfl, PMF.pure 0, fun i => ?_, ?_⟩
  · obtain rfl : i = 0 := Subsingleton.elim (α := Fin 1) i 0
    simp
  · rw [PMF.pure_map]
    rfl

theorem z_gateLaw : IsGateLaw 1 [zPrim] none (PMF.pure zGate) := single_gateLaw (by simp [zPrim]) zPrim_law

theorem coin_bind {α : Type} {p : ℝ} (h0 : 0 ≤ p) (h1 : p ≤ 1) (f : Bool → PMF α) (a : α) :
    ((coin p).bind f) a = ENNReal.ofReal p * f true a + ENNReal.ofReal (1 - p) * f false a := by
  rw [PMF.bind_apply, tsum_bool, coin_true h0 h1, coin_false h0 h1, add_comm]

/-- C68: one step from the empty sequence, with the identity as target and a gate orthogonal to it as only primitive.
The gate is proposed with probability 1/2 and then accepted with probability `exp (-1)`. -/
example (rng : Rng) : Rng.tapes 1 {t | ReturnsGates [zGate] [1]
      ((zCompiler (1 / 2) 1 0).compile 0 idTarget (some 2) 1 ((zClient rng).world.reseed t))} =
    ENNReal.ofReal (Real.exp (-1) / 2) := by
  have h := (C68_compile_law (zSession 0 rng (1 / 2) 1) (C := zCompiler (1 / 2) 1 0) (by simp) (zClient_entries rng)
    (n := 1) rfl (zCompiler_prims _ _ _) (zCompiler_truthy _ _ _) (zCompiler_choice _ _ _)
    ⟨by norm_num [zCompiler], by norm_num [zCompiler]⟩ idTarget_exact (b := 0) rfl z_gateLaw (B := 1) le_rfl
    (by simp [zCompiler]) (by
      intro p hp lists hl
      obtain rfl := List.mem_singleton.mp hp
      obtain rfl := Option.some.inj hl
      simp) (some 2) 1 {([zGate], [1])}).2
  simp only [Set.mem_singleton_iff, exists_eq_left] at h
  rw [h, PMF.toOuterMeasure_apply_singleton]
  have hg : ¬ Metropolis.GoodEnough (some 2) (Metropolis.cost 1 1 []) := by
    rw [cost_nil]; norm_num [Metropolis.GoodEnough]
  have hr : (zCompiler (1 / 2) 1 0).annealingRate = 1 := rfl
  have ha : (zCompiler (1 / 2) 1 0).appendProbability = 1 / 2 := rfl
  have hb : min ((0 : ℝ) + 1) ((2 ^ 2 ^ 1) ^ 2) = 1 := by norm_num
  have he : Real.exp (-1) ≤ 1 := Real.exp_le_one_iff.mpr (by norm_num)
  have h01 : (0 : ℝ) ≤ 1 / 2 := by norm_num
  have h12 : (1 / 2 : ℝ) ≤ 1 := by norm_num
  rw [idTarget_matrix, hr, ha]
  simp only [Int.toNat_one, Metropolis.runLaw, if_neg hg, Metropolis.stepLaw, Metropolis.proposeLaw,
    bind, pure, PMF.bind_bind, PMF.pure_bind, PMF.map, Function.comp_def, hb]
  rw [coin_bind h01 h12, coin_bind h01 h12, coin_bind h01 h12]
  have k1 : ((coin (min 1 (Real.exp (-1 * (Metropolis.cost 1 1 [zGate] - Metropolis.cost 1 1 []))))).bind fun a =>
      PMF.pure (Metropolis.outcome 1 1 [⟨if a = true then [zGate] else [], 1⟩])) ([zGate], [1]) =
      ENNReal.ofReal (Real.exp (-1)) := by
    rw [cost_nil, cost_z, sub_zero, mul_one, min_eq_right he, coin_bind (Real.exp_nonneg _) he]
    simp [Metropolis.outcome, cost_z, PMF.pure_apply]
  have k2 : ((coin (min 1 (Real.exp (-1 * (Metropolis.cost 1 1 [] - Metropolis.cost 1 1 []))))).bind fun a =>
      PMF.pure (Metropolis.outcome 1 1 [⟨if a = true then [] else [], 1⟩])) ([zGate], [1]) = 0 := by
    rw [sub_self, mul_zero, Real.exp_zero, min_self, coin_bind zero_le_one le_rfl]
    simp [Metropolis.outcome, PMF.pure_apply]
  simp only [if_true, Bool.false_eq_true, if_false, PMF.pure_bind, List.reverse_singleton, List.append_nil,
    List.nil_append, List.drop_nil, List.take_nil, k1, k2, mul_zero, add_zero]
  rw [← add_mul, ← ENNReal.ofReal_add h01 (by norm_num), ← ENNReal.ofReal_mul (by norm_num),
    ← ENNReal.ofReal_mul (by norm_num)]
  congr 1
  ring

end Stoq
