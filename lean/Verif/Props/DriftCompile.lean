import Verif.Proofs.DriftCompile
import Verif.Props.CompileExamples
import Verif.Props.Drift

/-!
# C61: compilation with the clean-up of small matrix entries and rounding

The arithmetic `τ` is arbitrary, with clean-up threshold and rounding errors up to `t`, gates and target are stored up
to an error, and the number of steps is within the error budget of C56.
-/

namespace Stoq

open World Compiler Matrix

section

variable {n : ℕ} {τ : Arith} {t ε δ : ℝ}

/-- C61: primitives stored up to an error `ε` yield gates which realise ideal unitary gates up to `ε`. -/
theorem C61_ideal_gates (hτ : τ.Accurate (2 ^ n) t) (hle : 3 * 2 ^ n * t ≤ ε) (hlim : ε ≤ driftLimit) {prims : List Primitive}
    (hp : ∀ p ∈ prims, p.Nearly n t ε) : ∃ ideal, IdealFor τ n prims ε ideal := exists_ideal ⟨hτ, hle, hlim⟩ hp

/-- The result of a compilation: no exception, and a run of the specification with costs measured up to `E`. -/
def NearlyCompiles (n : ℕ) (T : Matrix (Fin (2 ^ n)) (Fin (2 ^ n)) ℂ) (τ : Arith) (t ε E : ℝ) (ideal : EntryVal → Gate) (C : Compiler)
    (threshold : Option ℝ) (m : ℤ) (K : ℕ) (proposal : List EntryVal → PyM Rng (List EntryVal)) (b : ℝ) (w : World)
    (out : Except PyErr CompilerResult × World) : Prop :=
  ∃ R w' g undo b', out = (.ok R, w') ∧ w'.view R.sequence = some ⟨2 ^ n, false, g, undo⟩ ∧
    Metropolis.NearRun (Metropolis.idealCost n T ideal) E threshold C.annealingRate (((2 : ℝ) ^ 2 ^ n) ^ 2) proposal
      m.toNat [] b w.rng R.costByStep g b' w'.rng ∧
    w'.annealing C = some b' ∧ (∀ v ∈ g, (ideal v).Ok n ∧ v.Realises (ideal v) ε) ∧
    ∃ p, (Seq.product τ R.sequence w').1 = .ok p ∧ p.Near (gateProduct n (g.map ideal)) (driftErr n t ε K)

theorem nearlyCompiles_of {T : Matrix (Fin (2 ^ n)) (Fin (2 ^ n)) ℂ} {ideal : EntryVal → Gate} {C : Compiler}
    {threshold : Option ℝ} {m : ℤ} {K : ℕ} {E : ℝ} {proposal : List EntryVal → PyM Rng (List EntryVal)} {b : ℝ} {w : World}
    {out : Except PyErr CompilerResult × World} (hb : Budget n τ t ε K) (hcap : C.maxBeta = ((2 : ℝ) ^ 2 ^ n) ^ 2)
    (h : ∃ R o' b', out.1 = .ok R ∧ R.sequence = w.seqs.length ∧ out.2.WF τ ∧ out.2.seqs[R.sequence]? = some o' ∧
      o'.isArray = false ∧ out.2.betas[C.self]? = some b' ∧ Ideal n t ε K ideal out.2.entries o' ∧
      Metropolis.NearRun (Metropolis.idealCost n T ideal) E threshold C.annealingRate C.maxBeta
        proposal m.toNat [] b w.rng R.costByStep (valsOf out.2.entries o'.entries) b' out.2.rng) :
    NearlyCompiles n T τ t ε E ideal C threshold m K proposal b w out := by
  obtain ⟨R, o', b', h1, -, h3, h4, h5, h6, h7, h8⟩ := h
  rw [hcap] at h8
  refine ⟨R, out.2, _, o'.previousEntries.map (valsOf out.2.entries), b', Prod.ext h1 rfl,
    view_eq_some.mpr ⟨o', h4, by rw [viewOf, h5, DriftOk.dim h7]⟩, h8, h6, fun v hv => ?_, ?_⟩
  · refine ⟨h7.gok _ (List.mem_map.mpr ⟨v, hv, rfl⟩), ?_⟩
    have := h7.ents
    unfold RealisesAll at this
    rw [List.forall₂_map_right_iff, List.forall₂_same] at this
    exact this v hv
  · have hp := product_near h7 hb h3 h4
    rw [Wp] at hp
    obtain ⟨_, p, -, h9, h10, -⟩ := hp
    exact ⟨p, h9, h10⟩

/-- C61: with clean-up and rounding, `compile` does not raise an exception as long as the number of steps is within
the budget, and is a run of the specification on the ideal gates in which each cost is measured up to an error. -/
theorem C61_compile {c : Client} {Cs : List Compiler} (hs : Session τ c Cs) {C : Compiler} (hC : C ∈ Cs)
    (hD : C.dimension = 2 ^ n) (hle : 3 * 2 ^ n * t ≤ ε) (hprims : ∀ p ∈ C.primitives, p.Nearly n t ε) (hT : C.Truthy)
    (hch : ChoiceOk C.primitives C.probabilities) (hp : 0 ≤ C.appendProbability ∧ C.appendProbability ≤ 1)
    {target : Unitary} {T : Matrix (Fin (2 ^ n)) (Fin (2 ^ n)) ℂ} (hU : T ∈ unitaryGroup (Fin (2 ^ n)) ℂ)
    (ht : target.Near T δ) (hδ : δ + 3 * 2 ^ n * t ≤ driftLimit) {b : ℝ} (hb : c.world.annealing C = some b)
    (threshold : Option ℝ) (m : ℤ) (hbud : Budget n τ t ε (m.toNat + 1)) {ideal : EntryVal → Gate}
    (hi : IdealFor τ n C.primitives ε ideal) :
    NearlyCompiles n T τ t ε (costErr n t ε δ m.toNat) ideal C threshold m m.toNat (C.proposal τ) b c.world
      (C.compile τ target threshold m c.world) := by
  have hd : DrawOk n τ t ε := ⟨hbud.tau, hle, le_trans (by
    have h2 := two_pow_tau_nonneg n hbud.t0; unfold stepErr; nlinarith) hbud.step⟩
  have hcap := (hs.ok.2.dim C hC).2
  rw [hD] at hcap
  refine nearlyCompiles_of (hbud.mono (Nat.le_succ _)) hcap ?_
  have := compileWith_near (makeRandomChange_refines τ C) (makeRandomChange_near hd hD hprims hch hp hi) hU ht hδ threshold
    m (by rw [one_mul]; exact hbud) hD hs.ok.1.wf hb
  rw [one_mul] at this
  rw [compile_eq hT]
  exact this

/-- C61 for `compile_layered`: a step counts as many operations as a layer has gates. -/
theorem C61_compileLayered {c : Client} {Cs : List Compiler} (hs : Session τ c Cs) {C : Compiler} (hC : C ∈ Cs)
    (hD : C.dimension = 2 ^ n) (hle : 3 * 2 ^ n * t ≤ ε) {counts : List (Primitive × ℤ)}
    (hprims : ∀ pc ∈ counts, pc.1.Nearly n t ε) (hus : ∀ pc ∈ counts, 0 < pc.2 → pc.1.allowedApplyTo ≠ some [])
    (hp : 0 ≤ C.appendProbability ∧ C.appendProbability ≤ 1)
    {target : Unitary} {T : Matrix (Fin (2 ^ n)) (Fin (2 ^ n)) ℂ} (hU : T ∈ unitaryGroup (Fin (2 ^ n)) ℂ)
    (ht : target.Near T δ) (hδ : δ + 3 * 2 ^ n * t ≤ driftLimit) {b : ℝ} (hb : c.world.annealing C = some b)
    (threshold : Option ℝ) (m : ℤ) (hbud : Budget n τ t ε ((counts.map fun pc => pc.2.toNat).sum * m.toNat + 1))
    {ideal : EntryVal → Gate} (hi : IdealFor τ n (counts.map Prod.fst) ε ideal) :
    NearlyCompiles n T τ t ε (costErr n t ε δ ((counts.map fun pc => pc.2.toNat).sum * m.toNat)) ideal C threshold m
      ((counts.map fun pc => pc.2.toNat).sum * m.toNat) (C.layeredProposal τ counts) b c.world
      (C.compileLayered τ target counts threshold m c.world) := by
  have hd : DrawOk n τ t ε := ⟨hbud.tau, hle, le_trans (by
    have h2 := two_pow_tau_nonneg n hbud.t0; unfold stepErr; nlinarith) hbud.step⟩
  have hcap := (hs.ok.2.dim C hC).2
  rw [hD] at hcap
  refine nearlyCompiles_of (hbud.mono (Nat.le_succ _)) hcap ?_
  exact compileWith_near (makeRandomChangeLayered_refines τ C counts)
    (makeRandomChangeLayered_near hd hD hprims hus hp hi) hU ht hδ threshold m hbud hD hs.ok.1.wf hb

end

/-! ## What such runs are -/

namespace Metropolis

variable {cost : List EntryVal → ℝ} {E : ℝ} {threshold : Option ℝ} {rate cap : ℝ}
  {proposal : List EntryVal → PyM Rng (List EntryVal)} {k : ℕ} {g g' : List EntryVal} {b b' : ℝ} {r r' : Rng}
  {costs : List ℝ}

theorem NearRun.length_le (h : NearRun cost E threshold rate cap proposal k g b r costs g' b' r') : costs.length ≤ k := by
  induction h with
  | stop => simp
  | out => simp
  | accept c x y _ _ _ _ _ _ _ ih => simpa using ih
  | reject c x y _ _ _ _ _ _ _ ih => simpa using ih

end Metropolis

/-- C61: a run which ends before its steps are used up ends with gates whose ideal cost is good enough up to the
error: at most `1 - x + E` with threshold `x`, at most `1e-8 + E` without. -/
theorem C61_early_end {cost : List EntryVal → ℝ} {E : ℝ} {threshold : Option ℝ} {rate cap : ℝ}
    {proposal : List EntryVal → PyM Rng (List EntryVal)} {k : ℕ} {g g' : List EntryVal} {b b' : ℝ} {r r' : Rng}
    {costs : List ℝ} (h : Metropolis.NearRun cost E threshold rate cap proposal k g b r costs g' b' r')
    (hk : costs.length < k) :
    (∀ x, threshold = some x → cost g' ≤ 1 - x + E) ∧ (threshold = none → |cost g'| ≤ 1e-8 + E) := by
  induction h with
  | stop c h1 h2 =>
    rw [abs_le] at h1
    constructor
    · rintro x rfl
      have h3 : c ≤ 1 - x := h2
      linarith
    · rintro rfl
      have h3 : |c| ≤ 1 / 100000000 := h2
      rw [abs_le] at h3 ⊢
      constructor <;> norm_num at * <;> linarith
  | out => simp at hk
  | accept c x y _ _ _ _ _ _ _ ih => exact ih (by simpa using hk)
  | reject c x y _ _ _ _ _ _ _ ih => exact ih (by simpa using hk)

/-- C61: the last recorded cost is that of the final gates, up to the error. -/
theorem C61_last_cost {cost : List EntryVal → ℝ} {E : ℝ} {threshold : Option ℝ} {rate cap : ℝ}
    {proposal : List EntryVal → PyM Rng (List EntryVal)} {k : ℕ} {g g' : List EntryVal} {b b' : ℝ} {r r' : Rng}
    {costs : List ℝ} (h : Metropolis.NearRun cost E threshold rate cap proposal k g b r costs g' b' r') {z : ℝ}
    (hz : costs.getLast? = some z) : |z - cost g'| ≤ E := by
  have key : ∀ {k g b r costs g' b' r'}, Metropolis.NearRun cost E threshold rate cap proposal k g b r costs g' b' r' →
      costs = [] → g' = g := by
    intro k g b r costs g' b' r' h hc
    cases h with
    | stop => rfl
    | out => rfl
    | accept => cases hc
    | reject => cases hc
  induction h with
  | stop => simp at hz
  | out => simp at hz
  | @accept k g b r new r1 costs g' b' r' c x y _ _ _ _ hy _ h ih =>
    rcases costs with _ | ⟨a, l⟩
    · rw [key h rfl]
      obtain rfl : y = z := by simpa using hz
      exact hy
    · exact ih (by rw [List.getLast?_cons_cons] at hz; exact hz)
  | @reject k g b r new r1 costs g' b' r' c x y _ _ _ hx _ _ h ih =>
    rcases costs with _ | ⟨a, l⟩
    · rw [key h rfl]
      obtain rfl : x = z := by simpa using hz
      exact hx
    · exact ih (by rw [List.getLast?_cons_cons] at hz; exact hz)

/-- C61: without error the runs are exactly the walks of C31. -/
theorem C61_no_error {n : ℕ} {T : Matrix (Fin (2 ^ n)) (Fin (2 ^ n)) ℂ} {threshold : Option ℝ} {rate cap : ℝ}
    {proposal : List EntryVal → PyM Rng (List EntryVal)} {k : ℕ} {g g' : List EntryVal} {b b' : ℝ} {r r' : Rng}
    {costs : List ℝ} :
    Metropolis.NearRun (Metropolis.cost n T) 0 threshold rate cap proposal k g b r costs g' b' r' ↔
      ∃ tr, Metropolis.run n T threshold rate cap proposal k ⟨g, b⟩ r = (.ok tr, r') ∧
        costs = tr.map (fun st => Metropolis.cost n T st.gates) ∧ tr.getLast?.getD ⟨g, b⟩ = ⟨g', b'⟩ := by
  have z : ∀ {x y : ℝ}, |x - y| ≤ 0 ↔ x = y := fun {x y} => by rw [abs_nonpos_iff, sub_eq_zero]
  constructor
  · intro h
    induction h with
    | @stop k g b r c h1 h2 =>
      rw [z] at h1
      subst h1
      refine ⟨[], ?_, rfl, rfl⟩
      cases k with
      | zero => rfl
      | succ k => rw [Metropolis.run, if_pos h2]; rfl
    | out => exact ⟨[], rfl, rfl, rfl⟩
    | @accept k g b r new r1 costs g' b' r' c x y h1 h2 h3 h4 h5 h6 _ ih =>
      rw [z] at h1 h4 h5
      subst h1 h4 h5
      obtain ⟨tr, e1, e2, e3⟩ := ih
      refine ⟨⟨new, min (b + rate) cap⟩ :: tr, ?_, by rw [e2]; rfl, by rw [getLast?_cons_getD]; exact e3⟩
      rw [run_one (st := ⟨g, b⟩) h2 h3]
      simp only [if_pos h6]
      rw [PyM.bind_of_ok e1]; rfl
    | @reject k g b r new r1 costs g' b' r' c x y h1 h2 h3 h4 h5 h6 _ ih =>
      rw [z] at h1 h4 h5
      subst h1 h4 h5
      obtain ⟨tr, e1, e2, e3⟩ := ih
      refine ⟨⟨g, min (b + rate) cap⟩ :: tr, ?_, by rw [e2]; rfl, by rw [getLast?_cons_getD]; exact e3⟩
      rw [run_one (st := ⟨g, b⟩) h2 h3]
      simp only [if_neg h6]
      rw [PyM.bind_of_ok e1]; rfl
  · rintro ⟨tr, h1, rfl, h3⟩
    induction k generalizing g b r tr with
    | zero =>
      cases h1
      cases h3
      exact .out
    | succ k ih =>
      rcases Metropolis.run_succ_ok h1 with ⟨hg, rfl, rfl⟩ | ⟨st', r1, rest, hg, h4, h5, rfl⟩
      · cases h3
        exact .stop _ (z.mpr rfl) hg
      · rw [getLast?_cons_getD] at h3
        have h6 := ih _ h5 h3
        unfold Metropolis.step at h4
        rw [PyM.bind_eq_ok_iff] at h4
        obtain ⟨new, r2, h7, h8⟩ := h4
        rw [PyM.bind_of_ok (Rng.randomSample_eq r2)] at h8
        split_ifs at h8 with h9
        · cases h8
          exact .accept _ _ _ (z.mpr rfl) hg h7 (z.mpr rfl) (z.mpr rfl) h9 h6
        · cases h8
          exact .reject _ _ _ (z.mpr rfl) hg h7 (z.mpr rfl) (z.mpr rfl) h9 h6

/-! ## A compilation at the code's threshold -/

theorem zBudget (k : ℕ) (hk : k ≤ 80) : Budget 1 (.exact codeTau) codeTau 6e-12 k :=
  (C56_budget code_accurate (by unfold codeTau; norm_num) (by norm_num) (by
    have : (k : ℝ) ≤ 80 := by exact_mod_cast hk
    unfold stepErr codeTau; norm_num; nlinarith)).1.mono le_rfl

/-- Fifty steps on one qubit. -/
example (rng : Rng) : ∃ ideal, IdealFor (.exact codeTau) 1 [zPrim] 6e-12 ideal ∧
    NearlyCompiles 1 1 (.exact codeTau) codeTau 6e-12 (costErr 1 codeTau 6e-12 0 50) ideal (zCompiler (1 / 2) 1 0) none 50 50
      ((zCompiler (1 / 2) 1 0).proposal (.exact codeTau)) 0 (zClient rng).world
      ((zCompiler (1 / 2) 1 0).compile (.exact codeTau) idTarget none 50 (zClient rng).world) := by
  have hn : ∀ p ∈ [zPrim], p.Nearly 1 codeTau 6e-12 := fun p hp => by
    obtain rfl := List.mem_singleton.mp hp
    exact (zPrim_valid le_rfl).nearly ⟨code_accurate, by unfold codeTau; norm_num, by unfold driftLimit; norm_num⟩
  obtain ⟨ideal, hi⟩ := C61_ideal_gates (t := codeTau) (n := 1) (ε := 6e-12) code_accurate
    (by unfold codeTau; norm_num) (by unfold driftLimit; norm_num) hn
  refine ⟨ideal, hi, ?_⟩
  have ht := idTarget_exact.near
  rw [idTarget_matrix] at ht
  exact C61_compile (zSession (.exact codeTau) rng (1 / 2) 1) (C := zCompiler (1 / 2) 1 0) (by simp) (n := 1) rfl
    (by unfold codeTau; norm_num) hn (zCompiler_truthy _ _ _) (zCompiler_choice _ _ _)
    ⟨by norm_num [zCompiler], by norm_num [zCompiler]⟩ (one_mem _) ht (by unfold codeTau driftLimit; norm_num)
    rfl none 50 (zBudget _ (by norm_num)) hi

/-- The error of the costs in it is below `1e-8`, the tolerance of `close_to`. -/
example : costErr 1 codeTau 6e-12 0 50 ≤ 1e-8 := by
  have h := (zBudget 51 (by norm_num)).lim
  unfold costErr
  unfold driftLimit at h
  have h0 := driftErr_nonneg (n := 1) (k := 51) (t := codeTau) (ε := 6e-12) (by unfold codeTau; norm_num) (by norm_num)
  unfold codeTau at *
  norm_num at *
  nlinarith

/-- Twenty steps with layers of two gates. -/
example (rng : Rng) : ∃ ideal, IdealFor (.exact codeTau) 1 [zPrim] 6e-12 ideal ∧
    NearlyCompiles 1 1 (.exact codeTau) codeTau 6e-12 (costErr 1 codeTau 6e-12 0 40) ideal (zCompiler (1 / 2) 1 0) none 20 40
      ((zCompiler (1 / 2) 1 0).layeredProposal (.exact codeTau) [(zPrim, 2)]) 0 (zClient rng).world
      ((zCompiler (1 / 2) 1 0).compileLayered (.exact codeTau) idTarget [(zPrim, 2)] none 20 (zClient rng).world) := by
  have hn : ∀ p ∈ [zPrim], p.Nearly 1 codeTau 6e-12 := fun p hp => by
    obtain rfl := List.mem_singleton.mp hp
    exact (zPrim_valid le_rfl).nearly ⟨code_accurate, by unfold codeTau; norm_num, by unfold driftLimit; norm_num⟩
  obtain ⟨ideal, hi⟩ := C61_ideal_gates (t := codeTau) (n := 1) (ε := 6e-12) code_accurate
    (by unfold codeTau; norm_num) (by unfold driftLimit; norm_num) hn
  refine ⟨ideal, hi, ?_⟩
  have ht := idTarget_exact.near
  rw [idTarget_matrix] at ht
  exact C61_compileLayered (zSession (.exact codeTau) rng (1 / 2) 1) (C := zCompiler (1 / 2) 1 0) (by simp) (n := 1) rfl
    (by unfold codeTau; norm_num) (counts := [(zPrim, 2)])
    (by intro pc hpc; obtain rfl := List.mem_singleton.mp hpc; exact hn _ (by simp))
    (by intro pc hpc _; obtain rfl := List.mem_singleton.mp hpc; simp [zPrim])
    ⟨by norm_num [zCompiler], by norm_num [zCompiler]⟩ (one_mem _) ht (by unfold codeTau driftLimit; norm_num)
    rfl none 20 (zBudget (2 * 20 + 1) (by norm_num)) hi

end Stoq
