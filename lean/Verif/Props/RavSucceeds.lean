import Verif.Spec.LawVerification
import Verif.Props.Succeeds
import Mathlib.Analysis.Real.Pi.Irrational

/-!
# C70: verification sequences come back with probability one in the long run

The distribution of the results of `generate_rav_sequence` and `generate_layered_rav_sequence`, and a bound for the
probability that the product is not as close to the identity as required.  No assumption on the primitives is needed:
what gates have done can be undone by more of the same gates up to any distance.
-/

namespace Stoq

open MeasureTheory World Compiler Matrix Verification

namespace Rav

variable {B n : ℕ}

theorem blocks_law {fresh : PyM Rng (List EntryVal)} {φ : PMF (List EntryVal)} (h : Rng.HasLaw B fresh φ) (k : ℕ) :
    Rng.HasLaw B (blocks fresh k) (blocksLaw φ k) := by
  induction k with
  | zero => exact Rng.HasLaw.pure _
  | succ k ih => exact h.bind fun b _ => ih.bind fun rest _ => Rng.HasLaw.pure _

theorem plan_law {random : PyM Rng (List EntryVal)} {prop : List EntryVal → PyM Rng (List EntryVal)}
    {ρ : PMF (List EntryVal)} {law : List EntryVal → PMF (List EntryVal)} {rate cap : ℝ} {threshold : Option ℝ}
    {skip : Prop} {m : ℤ} (hr : Rng.HasLaw B random ρ) (h : ∀ g, Rng.HasLaw B (prop g) (law g)) :
    Rng.HasLaw B (plan n random prop rate cap threshold skip m) (planLaw n ρ law rate cap threshold skip m) := by
  unfold plan planLaw
  refine hr.bind fun pre _ => ?_
  split_ifs
  · exact Rng.HasLaw.pure _
  · exact (Metropolis.run_law h m.toNat ⟨[], 0⟩).bind fun walk _ => Rng.HasLaw.pure _

theorem blocksLaw_layered {φ : PMF (List EntryVal)} {k : ℕ} {pre : List EntryVal} (h : pre ∈ (blocksLaw φ k).support) :
    Metropolis.Layered φ.support pre := by
  induction k generalizing pre with
  | zero => rw [(PMF.mem_support_pure_iff _ _).mp h]; exact .nil
  | succ k ih =>
    obtain ⟨b, hb, h⟩ := (PMF.mem_support_bind_iff _ _ _).mp h
    obtain ⟨rest, hrest, h⟩ := (PMF.mem_support_bind_iff _ _ _).mp h
    rw [(PMF.mem_support_pure_iff _ _).mp h]
    exact (Metropolis.Layered.single hb).append (ih hrest)

end Rav

theorem probability_of_plan {B n : ℕ} {plan : PyM Rng (List EntryVal × List Metropolis.State)}
    {law : PMF (List EntryVal × List Metropolis.State)} {w : World} {M : PyM World CompilerResult}
    (hlaw : Rng.HasLaw B plan law) (h : ∀ t, FollowsPlan n plan (w.reseed t) (M (w.reseed t)))
    (A : Set (List EntryVal × List ℝ)) :
    MeasurableSet {t | ∃ a ∈ A, ReturnsGates a.1 a.2 (M (w.reseed t))} ∧
    Rng.tapes B {t | ∃ a ∈ A, ReturnsGates a.1 a.2 (M (w.reseed t))} =
      (law.map (Rav.outcome n)).toOuterMeasure A := by
  have hp := hlaw.probability (Rav.outcome n ⁻¹' A)
  rw [PMF.toOuterMeasure_map_apply]
  have hset : {t | ∃ a ∈ A, ReturnsGates a.1 a.2 (M (w.reseed t))} =
      {t | ∃ x ∈ Rav.outcome n ⁻¹' A, (plan (Rng.start t)).1 = .ok x} := by
    ext t
    have ht := h t
    unfold FollowsPlan at ht
    rw [show (w.reseed t).rng = Rng.start t from rfl] at ht
    obtain ⟨f, u, h1, -, -⟩ := hlaw
    rw [h1] at ht
    simp only [Set.mem_ofPred_eq, h1, Except.ok.injEq, exists_eq_right']
    obtain ⟨-, R, hR, hc, ⟨undo, hv⟩, -⟩ := ht
    set x := f (Rng.start t).rest
    constructor
    · rintro ⟨⟨g, cs⟩, ha, R', hR', hc', v, hv', hg'⟩
      rw [hR] at hR'
      obtain rfl := Except.ok.inj hR'
      rw [hv] at hv'
      obtain rfl := Option.some.inj hv'
      have : Rav.outcome n x = (g, cs) := Prod.ext hg' (hc.symm.trans hc')
      rw [Set.mem_preimage, this]
      exact ha
    · intro ha
      exact ⟨_, ha, R, hR, hc, _, hv, rfl⟩
  rw [hset]
  exact hp

/-- C70: the result of `generate_rav_sequence` has exactly the distribution of independent random gates followed by the
Metropolis chain towards the inverse of their product. -/
theorem C70_rav_law {c : Client} {Cs : List Compiler} (hs : Session 0 c Cs)
    (hex : ∀ x ∈ c.world.entries, x.toVal.Exact) {n : ℕ} {prims : List Primitive} {arr : Bool}
    (hprims : ∀ q ∈ prims, q.Valid n) (hne : prims ≠ []) (harr : ¬ (arr = true ∧ prims.length > 1)) {L : ℤ}
    (hL : 0 ≤ L) {t : ℝ} (ht : 0 ≤ t ∧ t ≤ 1) {p : ℝ} (hp : 0 ≤ p ∧ p ≤ 1) {probs : Option (List ℝ)}
    (hch : ChoiceOk prims probs) {law : PMF EntryVal} (hlaw : IsGateLaw n prims probs law) {B : ℕ} (hB : n ≤ B)
    (hB1 : prims.length ≤ B) (hB2 : ∀ q ∈ prims, ∀ lists, q.allowedApplyTo = some lists → lists.length ≤ B) (m : ℤ)
    (A : Set (List EntryVal × List ℝ)) :
    MeasurableSet {t' | ∃ a ∈ A, ReturnsGates a.1 a.2
      (generateRavSequence 0 (2 ^ n) prims arr L (some t) p probs m (c.world.reseed t'))} ∧
    Rng.tapes B {t' | ∃ a ∈ A, ReturnsGates a.1 a.2
      (generateRavSequence 0 (2 ^ n) prims arr L (some t) p probs m (c.world.reseed t'))} =
      ((Rav.planLaw n (Rav.blocksLaw (law.map fun v => [v]) L.toNat)
        (Metropolis.proposeLaw p (law.map fun v => [v]) 1) 0.1 (((2 : ℝ) ^ 2 ^ n) ^ 2) (some t) (t = 0 ∨ m = 0) m).map
          (Rav.outcome n)).toOuterMeasure A := by
  have hgen := Metropolis.one_law (createRandomEntryVal_law hch hprims hlaw hB hB1 hB2 0)
  refine probability_of_plan (Rav.plan_law (Rav.blocks_law hgen L.toNat)
    (prop := (ravCompiler (2 ^ n) prims arr probs p 0).proposal 0) fun g => ?_) (fun t' => ?_) A
  · exact Metropolis.propose_law hp.1 hp.2 hgen 1 g
  · rw [rav_eq, checked_ok _ (fun q hq => valid_dimension (hprims q hq)) hL ht]
    have hp := rav_post (2 ^ n) prims arr L.toNat t p probs m (hs.ok.1.wf.reseed t')
    rw [Wp] at hp
    exact plan_of_post rfl hex (fun v hv => generated_good hprims hv) (fun v hv => generated_good hprims hv)
      ⟨⟨by positivity, fun q hq => valid_dimension (hprims q hq)⟩, hne, harr⟩ hp

/-- C70: the same for `generate_layered_rav_sequence`. -/
theorem C70_layeredRav_law {c : Client} {Cs : List Compiler} (hs : Session 0 c Cs)
    (hex : ∀ x ∈ c.world.entries, x.toVal.Exact) {n : ℕ} {counts : List (Primitive × ℤ)}
    (hprims : ∀ pc ∈ counts, pc.1.Valid n) {L : ℤ} (hL : 0 ≤ L) {t : ℝ} (ht : 0 ≤ t ∧ t ≤ 1) {p : ℝ}
    (hp : 0 ≤ p ∧ p ≤ 1) {law : Primitive → PMF EntryVal}
    (hlaw : ∀ pc ∈ counts, 0 < pc.2 → pc.1.allowedApplyTo ≠ some [] ∧ pc.1.IsLaw n (law pc.1)) {B : ℕ} (hB : n ≤ B)
    (hB1 : 1 ≤ B) (hB2 : ∀ pc ∈ counts, ∀ lists, pc.1.allowedApplyTo = some lists → lists.length ≤ B)
    (hB3 : (counts.map fun pc => pc.2.toNat).sum ≤ B) (m : ℤ) (A : Set (List EntryVal × List ℝ)) :
    MeasurableSet {t' | ∃ a ∈ A, ReturnsGates a.1 a.2
      (generateLayeredRavSequence 0 (2 ^ n) counts L (some t) p m (c.world.reseed t'))} ∧
    Rng.tapes B {t' | ∃ a ∈ A, ReturnsGates a.1 a.2
      (generateLayeredRavSequence 0 (2 ^ n) counts L (some t) p m (c.world.reseed t'))} =
      ((Rav.planLaw n (Rav.blocksLaw (Metropolis.layerLaw law counts) L.toNat)
        (Metropolis.proposeLaw p (Metropolis.layerLaw law counts) ((counts.map Prod.snd).sum : ℤ).toNat) 0.1
          (((2 : ℝ) ^ 2 ^ n) ^ 2) (some t) (t = 0 ∨ m = 0) m).map (Rav.outcome n)).toOuterMeasure A := by
  have hgen : Rng.HasLaw B (Metropolis.layer (fun q => createRandomEntryVal 0 (2 ^ n) [q] none) counts)
      (Metropolis.layerLaw law counts) := by
    refine Metropolis.layer_law (fun pc hpc h0 => ?_) hB3
    obtain ⟨h1, h2⟩ := hlaw pc hpc h0
    have hpl : placeable [pc.1] = [pc.1] := by simp [placeable, h1]
    refine createRandomEntryVal_law (prims := [pc.1]) ?_ ?_ (single_gateLaw h1 h2) hB hB1 ?_ 0
    · unfold ChoiceOk
      rw [filter_usable, hpl]
      exact Nat.one_pos
    · intro p hp; rw [List.mem_singleton.mp hp]; exact hprims pc hpc
    · intro p hp; rw [List.mem_singleton.mp hp]; exact hB2 pc hpc
  refine probability_of_plan (Rav.plan_law (Rav.blocks_law hgen L.toNat)
    (prop := (ravCompiler (2 ^ n) (counts.map (·.1)) false none p 0).layeredProposal 0 counts) fun g => ?_)
    (fun t' => ?_) A
  · exact Metropolis.propose_law hp.1 hp.2 hgen _ g
  · rw [layeredRav_eq, checked_ok _ (fun q hq => valid_dimension (hprims q hq)) hL ht]
    have hp := layeredRav_post (2 ^ n) counts L.toNat t p m (hs.ok.1.wf.reseed t')
    rw [Wp] at hp
    exact plan_of_post rfl hex (fun v hv => generatedLayer_good hprims hv) (fun v hv => generatedLayer_good hprims hv)
      ⟨by positivity, fun q hq => valid_dimension (hprims q hq)⟩ hp

/-- The call returns a sequence whose product has at least the overlap `t` with the identity. -/
def ComesBack (n : ℕ) (t : ℝ) (out : Except PyErr CompilerResult × World) : Prop :=
  ∃ gates costs, ReturnsGates gates costs out ∧ t ≤ overlap 1 (circuit n gates)

theorem comesBack_of_law {B n L : ℕ} {φ : PMF (List EntryVal)} {t p rate cap : ℝ}
    {k m q : ℕ} {M : Rng.Tape → Except PyErr CompilerResult × World} {δ : ℝ} (hq : m = 0 → q = 0)
    (hlaw : ∀ A : Set (List EntryVal × List ℝ), MeasurableSet {t | ∃ a ∈ A, ReturnsGates a.1 a.2 (M t)} ∧
      Rng.tapes B {t | ∃ a ∈ A, ReturnsGates a.1 a.2 (M t)} =
      ((Rav.planLaw n (Rav.blocksLaw φ k) (Metropolis.proposeLaw p φ L) rate cap (some t) (t = 0 ∨ (m : ℤ) = 0) m).map
        (Rav.outcome n)).toOuterMeasure A)
    (hfail : ∀ pre, Metropolis.Layered φ.support pre → Metropolis.failP n (circuit n pre)ᴴ (some t) rate cap
      (Metropolis.proposeLaw p φ L) m ⟨[], 0⟩ ≤ ENNReal.ofReal ((1 - δ) ^ q)) :
    1 - ENNReal.ofReal ((1 - δ) ^ q) ≤ Rng.tapes B {t' | ComesBack n t (M t')} := by
  classical
  have h6 := (hlaw {a | t ≤ overlap 1 (circuit n a.1)}).2
  have hset : {t' | ComesBack n t (M t')} =
      {t' | ∃ a ∈ {a : List EntryVal × List ℝ | t ≤ overlap 1 (circuit n a.1)}, ReturnsGates a.1 a.2 (M t')} := by
    ext t'
    constructor
    · rintro ⟨g, cs, h, h'⟩; exact ⟨(g, cs), h', h⟩
    · rintro ⟨⟨g, cs⟩, h', h⟩; exact ⟨g, cs, h, h'⟩
  rw [hset, h6, toOuterMeasure_compl]
  refine tsub_le_tsub_left ?_ 1
  rw [PMF.toOuterMeasure_map_apply]
  unfold Rav.planLaw
  change (PMF.bind _ _).toOuterMeasure _ ≤ _
  rw [PMF.toOuterMeasure_bind_apply]
  refine (ENNReal.tsum_le_tsum (g := fun pre => Rav.blocksLaw φ k pre * ENNReal.ofReal ((1 - δ) ^ q)) ?_).trans ?_
  · intro pre
    by_cases hz : Rav.blocksLaw φ k pre = 0
    · rw [hz, zero_mul, zero_mul]
    have hpre := Rav.blocksLaw_layered ((PMF.mem_support_iff _ _).mpr hz)
    gcongr
    split
    · next hskip =>
      change (PMF.pure _).toOuterMeasure _ ≤ _
      rw [PMF.toOuterMeasure_pure_apply]
      split
      · next hbad =>
        rcases hskip with rfl | hm
        · exact absurd (overlap_nonneg _ _) hbad
        · rw [hq (by exact_mod_cast hm), pow_zero, ENNReal.ofReal_one]
      · exact zero_le
    · have := hfail pre hpre
      rw [← Metropolis.failP_eq] at this
      change (PMF.map (fun walk => (pre, walk)) _).toOuterMeasure _ ≤ _
      rw [PMF.toOuterMeasure_map_apply, Int.toNat_natCast]
      refine le_trans (PMF.toOuterMeasure_mono _ ?_) this
      rintro walk ⟨hw, -⟩
      intro hgood
      refine hw ?_
      have e : (walk.map Metropolis.State.gates).getLast?.getD [] = Rav.final walk := by
        rw [List.getLast?_map, Rav.final]
        cases walk.getLast? <;> rfl
      rw [e] at hgood
      have hgood : 1 - overlap (circuit n pre)ᴴ (circuit n (Rav.final walk)) ≤ 1 - t := hgood
      change t ≤ overlap 1 (circuit n (pre ++ Rav.final walk))
      rw [Rav.overlap_whole]
      linarith
  · rw [ENNReal.tsum_mul_right, PMF.tsum_coe, one_mul]

/-- C70: for every `t < 1` the probability that `generate_rav_sequence` with a limit of `m` steps returns a sequence
whose product has at least the overlap `t` with the identity is at least `1 - (1 - δ) ^ ⌊m / K⌋`, with a positive `δ`.
The numbers `δ` and `K` depend on the gates, `t` and the append probability, but not on the length of the random part or
the history of the session; nothing is assumed about the gates. -/
theorem C70_rav_succeeds {n : ℕ} {prims : List Primitive} {probs : Option (List ℝ)} {p : ℝ}
    (hprims : ∀ q ∈ prims, q.Valid n) (hch : ChoiceOk prims probs) (hp : 0 < p ∧ p ≤ 1) {law : PMF EntryVal}
    (hlaw : IsGateLaw n prims probs law) {t : ℝ} (ht : 0 ≤ t ∧ t < 1) :
    ∃ (δ : ℝ) (K : ℕ), 0 < δ ∧ δ ≤ 1 ∧ 0 < K ∧ ∀ {c : Client} {Cs : List Compiler}, Session 0 c Cs →
      (∀ x ∈ c.world.entries, x.toVal.Exact) → ∀ {arr : Bool}, prims ≠ [] → ¬ (arr = true ∧ prims.length > 1) →
      ∀ {L : ℤ}, 0 ≤ L → ∀ {B : ℕ}, n ≤ B → prims.length ≤ B →
      (∀ q ∈ prims, ∀ lists, q.allowedApplyTo = some lists → lists.length ≤ B) → ∀ m : ℕ,
        1 - ENNReal.ofReal ((1 - δ) ^ (m / K)) ≤ Rng.tapes B {t' | ComesBack n t
          (generateRavSequence 0 (2 ^ n) prims arr L (some t) p probs m (c.world.reseed t'))} := by
  have hφ := one_layerOk fun v hv => gateLaw_unitary hch hprims hlaw hv
  obtain ⟨Ws, hW1, hW2⟩ := Metropolis.exists_undo hφ ht.2
  obtain ⟨δ, K, h1, h2, h3, h4⟩ := Metropolis.failP_of_words (cap := ((2 : ℝ) ^ 2 ^ n) ^ 2) hφ (by positivity)
    hp.1 hp.2 hW1
  refine ⟨δ, K, h1, h2, h3, ?_⟩
  intro c Cs hs hex arr hne harr L hL B hB hB1 hB2 m
  refine comesBack_of_law (fun h => by rw [h, Nat.zero_div]) (fun A => C70_rav_law hs hex hprims hne harr hL
    ⟨ht.1, ht.2.le⟩ ⟨hp.1.le, hp.2⟩ hch hlaw hB hB1 hB2 m A) fun pre hpre => ?_
  exact h4 _ (some t) (Unitary.star_mem (hpre.unitary hφ)) (hW2 pre hpre) 0.1 (by norm_num) m _ ⟨.nil, le_rfl⟩

/-- C70: the same for `generate_layered_rav_sequence`. -/
theorem C70_layeredRav_succeeds {n : ℕ} {counts : List (Primitive × ℤ)} {p : ℝ}
    (hprims : ∀ pc ∈ counts, pc.1.Valid n) (hcounts : ∀ pc ∈ counts, 0 ≤ pc.2) (hp : 0 < p ∧ p ≤ 1)
    {law : Primitive → PMF EntryVal}
    (hlaw : ∀ pc ∈ counts, 0 < pc.2 → pc.1.allowedApplyTo ≠ some [] ∧ pc.1.IsLaw n (law pc.1)) {t : ℝ}
    (ht : 0 ≤ t ∧ t < 1) :
    ∃ (δ : ℝ) (K : ℕ), 0 < δ ∧ δ ≤ 1 ∧ 0 < K ∧ ∀ {c : Client} {Cs : List Compiler}, Session 0 c Cs →
      (∀ x ∈ c.world.entries, x.toVal.Exact) → ∀ {L : ℤ}, 0 ≤ L → ∀ {B : ℕ}, n ≤ B → 1 ≤ B →
      (∀ pc ∈ counts, ∀ lists, pc.1.allowedApplyTo = some lists → lists.length ≤ B) →
      (counts.map fun pc => pc.2.toNat).sum ≤ B → ∀ m : ℕ,
        1 - ENNReal.ofReal ((1 - δ) ^ (m / K)) ≤ Rng.tapes B {t' | ComesBack n t
          (generateLayeredRavSequence 0 (2 ^ n) counts L (some t) p m (c.world.reseed t'))} := by
  have hφ := layer_layerOk hcounts fun pc hpc h0 v hv => primitiveLaw_unitary (hprims pc hpc) (hlaw pc hpc h0).1
      (hlaw pc hpc h0).2 hv
  obtain ⟨Ws, hW1, hW2⟩ := Metropolis.exists_undo hφ ht.2
  obtain ⟨δ, K, h1, h2, h3, h4⟩ := Metropolis.failP_of_words (cap := ((2 : ℝ) ^ 2 ^ n) ^ 2) hφ (by positivity)
    hp.1 hp.2 hW1
  refine ⟨δ, K, h1, h2, h3, ?_⟩
  intro c Cs hs hex L hL B hB hB1 hB2 hB3 m
  refine comesBack_of_law (fun h => by rw [h, Nat.zero_div]) (fun A => C70_layeredRav_law hs hex hprims hL
    ⟨ht.1, ht.2.le⟩ ⟨hp.1.le, hp.2⟩ hlaw hB hB1 hB2 hB3 m A) fun pre hpre => ?_
  exact h4 _ (some t) (Unitary.star_mem (hpre.unitary hφ)) (hW2 pre hpre) 0.1 (by norm_num) m _ ⟨.nil, le_rfl⟩

/-! ## The threshold one -/

/-- A rotation by an irrational multiple of a full turn. -/
noncomputable def radianPrim : Primitive := ⟨.inl (tinyPhase 1), some [[0]]⟩

theorem radianPrim_valid : ∀ q ∈ [radianPrim], q.Valid 1 := by
  intro q hq
  obtain rfl := List.mem_singleton.mp hq
  refine ⟨1, le_rfl, le_rfl, tinyPhase_exact _, ?_⟩
  intro l hl
  obtain rfl := List.mem_singleton.mp hl
  exact ⟨by simp, rfl, by simp⟩

theorem radian_circuit (k : ℕ) : circuit 1 (List.replicate k ⟨tinyPhase 1, [0]⟩) =
    !![Complex.exp (-(k : ℂ) * Complex.I), 0; 0, Complex.exp ((k : ℂ) * Complex.I)] := by
  have h : (⟨tinyPhase 1, [0]⟩ : EntryVal).op 1 =
      !![Complex.exp (-Complex.I), 0; 0, Complex.exp Complex.I] := by
    have e := tinyPhase_toMatrix 1
    ext i j
    have e' := congrFun (congrFun e i) j
    fin_cases i <;> fin_cases j <;> simpa [EntryVal.op, embed, AgreeOff, gather, qubit] using e'
  induction k with
  | zero =>
    ext i j
    fin_cases i <;> fin_cases j <;> simp [circuit]
  | succ k ih =>
    rw [List.replicate_succ, circuit, ih, h]
    have e1 : Complex.exp (-(k : ℂ) * Complex.I) * Complex.exp (-Complex.I) =
        Complex.exp (-((k + 1 : ℕ) : ℂ) * Complex.I) := by
      rw [← Complex.exp_add]; congr 1; push_cast; ring
    have e2 : Complex.exp ((k : ℂ) * Complex.I) * Complex.exp Complex.I =
        Complex.exp (((k + 1 : ℕ) : ℂ) * Complex.I) := by
      rw [← Complex.exp_add]; congr 1; push_cast; ring
    rw [← e1, ← e2]
    ext i j
    fin_cases i <;> fin_cases j <;> simp [Matrix.mul_apply, Fin.sum_univ_two]

theorem radian_overlap (k : ℕ) : overlap 1 (circuit 1 (List.replicate k ⟨tinyPhase 1, [0]⟩)) = |Real.cos k| := by
  unfold overlap
  rw [radian_circuit, conjTranspose_one, one_mul]
  have : (!![Complex.exp (-(k : ℂ) * Complex.I), 0; 0, Complex.exp ((k : ℂ) * Complex.I)] :
      Matrix (Fin 2) (Fin 2) ℂ).trace = ((2 * Real.cos k : ℝ) : ℂ) := by
    rw [Matrix.trace_fin_two_of]
    push_cast
    rw [Complex.two_cos]
    ring
  refine (congrArg (fun z : ℂ => ‖z‖ / ((2 : ℕ) : ℝ)) this).trans ?_
  rw [Complex.norm_real, Real.norm_eq_abs, abs_mul, abs_two]
  push_cast
  ring

/-- C70: the threshold one is different.  With rotations by one radian as only gates and at least one random gate,
`generate_rav_sequence` never returns a sequence whose product is the identity up to a phase. -/
theorem C70_exact_return_impossible {c : Client} {Cs : List Compiler} (hs : Session 0 c Cs) {L : ℤ} (hL : 0 < L) (p : ℝ)
    (m : ℤ) : ¬ ComesBack 1 1 (generateRavSequence 0 2 [radianPrim] false L (some 1) p none m c.world) := by
  rintro ⟨gates, costs, ⟨R, hR, -, v, hv, rfl⟩, hle⟩
  obtain ⟨-, pre, compiled, undo, h1, h2, h3, -⟩ := C42_rav_shape hs
    (show generateRavSequence 0 2 [radianPrim] false L (some 1) p none m c.world = (.ok R, _) from Prod.ext hR rfl)
  rw [hv] at h1
  obtain rfl := Option.some.inj h1
  have hall : ∀ g ∈ pre ++ compiled, g = ⟨tinyPhase 1, [0]⟩ := by
    intro g hg
    obtain ⟨-, q, hq, hf, hl⟩ := h3 g hg
    obtain rfl := List.mem_singleton.mp hq
    have hu : g.unitary = tinyPhase 1 := hf
    have ha : g.applyTo.map Int.ofNat = [0] := List.mem_singleton.mp hl
    obtain ⟨u, a⟩ := g
    obtain rfl := hu
    cases a with
    | nil => simp at ha
    | cons x a =>
      simp only [List.map_cons, List.cons.injEq, List.map_eq_nil_iff] at ha
      obtain ⟨hx, rfl⟩ := ha
      have : x = 0 := Int.ofNat_eq_zero.mp hx
      rw [this]
  rw [List.eq_replicate_of_mem hall, radian_overlap] at hle
  set k := (pre ++ compiled).length with hk
  have hk0 : k ≠ 0 := by
    rw [hk, List.length_append]
    omega
  have hs0 : Real.sin k = 0 := by
    have h1 := Real.sin_sq_add_cos_sq k
    rw [← sq_abs (Real.cos k)] at h1
    have h2 := abs_nonneg (Real.cos k)
    nlinarith [sq_nonneg (Real.sin k)]
  obtain ⟨z, hz⟩ := Real.sin_eq_zero_iff.mp hs0
  have hz0 : z ≠ 0 := by
    rintro rfl
    rw [Int.cast_zero, zero_mul] at hz
    exact hk0 (by exact_mod_cast hz.symm)
  refine (irrational_pi.intCast_mul hz0) ⟨k, ?_⟩
  rw [hz]
  push_cast
  rfl

/-! ## Examples -/

/-- C70: the hypotheses of the last theorem are met, and such a call returns a result. -/
example (rng : Rng) : ∃ R w', generateRavSequence 0 2 [radianPrim] false 3 (some 1) (1 / 2) none 5 (zClient rng).world =
    (.ok R, w') ∧ ¬ ComesBack 1 1 (.ok R, w') := by
  obtain ⟨R, w', h⟩ := C42_rav_never_raises (zSession 0 rng (1 / 2) 1) (zClient_entries rng) (n := 1) (prims := [radianPrim])
    (arr := false) (L := 3) (t := 1) (p := 1 / 2) (probs := none) radianPrim_valid (by simp)
    (by simp) (by norm_num) (by norm_num) (by norm_num) (by simp [ChoiceOk, usable, radianPrim]) 5
  refine ⟨R, w', h, ?_⟩
  have := C70_exact_return_impossible (zSession 0 rng (1 / 2) 1) (L := 3) (by norm_num) (1 / 2) 5
  rwa [show generateRavSequence 0 2 [radianPrim] false 3 (some 1) (1 / 2) none 5 (zClient rng).world = (.ok R, w') from h]
    at this

/-- C70: with a single gate, random circuits of any length and a threshold of 0.999, the result is within the threshold
with a probability as close to one as desired after enough steps; the number of steps does not depend on the length. -/
example {ε : ℝ} (hε : 0 < ε) : ∃ m0 : ℕ, ∀ (rng : Rng) (L m : ℕ), m0 ≤ m → 1 - ENNReal.ofReal ε ≤
    Rng.tapes 1 {t | ComesBack 1 (999 / 1000) (generateRavSequence 0 2 [zPrim] false L (some (999 / 1000)) (1 / 2) none m
      ((zClient rng).world.reseed t))} := by
  obtain ⟨δ, K, h1, h2, h3, h4⟩ := C70_rav_succeeds (n := 1) (probs := none) (p := 1 / 2) (t := 999 / 1000) zPrims_valid
    zPrims_choice (by norm_num) z_gateLaw (by norm_num)
  obtain ⟨q, hq⟩ := exists_pow_lt_of_lt_one hε (show 1 - δ < 1 by linarith)
  refine ⟨q * K, fun rng L m hm => le_trans (tsub_le_tsub_left (ENNReal.ofReal_le_ofReal ?_) 1)
    (h4 (zSession 0 rng (1 / 2) 1) (zClient_entries rng) (by simp) (by simp) (Int.natCast_nonneg L) le_rfl (by simp) ?_ m)⟩
  · exact le_trans (pow_le_pow_of_le_one (by linarith) (by linarith) ((Nat.le_div_iff_mul_le h3).mpr hm)) hq.le
  · intro p hp lists hl
    obtain rfl := List.mem_singleton.mp hp
    obtain rfl := Option.some.inj hl
    simp

end Stoq
