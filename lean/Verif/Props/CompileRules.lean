import Verif.Proofs.Session

/-!
# C35, C36, C38, C39: acceptance rule, annealing schedule, choice of primitives and of actions
-/

namespace Stoq

open World Compiler

/-! ## C35: acceptance -/

/-- C35: with a non-negative annealing value, a change that does not increase the cost is accepted whatever the
random outcome. -/
theorem C35_improvement_accepted {C : Compiler} {w : World} {b : ℝ} (hb : w.annealing C = some b) (h0 : 0 ≤ b)
    {current proposed : ℝ} (h : proposed ≤ current) : (acceptProposedChange C current proposed w).1 = .ok true := by
  rw [acceptProposedChange_eq hb]
  have h1 : acceptanceProbability b current proposed = 1 := by
    unfold acceptanceProbability
    refine min_eq_left (Real.one_le_exp ?_)
    nlinarith
  have := (w.rng.unif w.rng.upos).2.2
  simp [h1, this]

/-- C35: a change that increases the cost is accepted iff the uniform draw is below `exp (-β · increase)`. -/
theorem C35_worse_accepted_iff {C : Compiler} {w : World} {b : ℝ} (hb : w.annealing C = some b) (h0 : 0 ≤ b)
    {current proposed : ℝ} (h : current < proposed) :
    ∃ a, (acceptProposedChange C current proposed w).1 = .ok a ∧
      (a = true ↔ (w.rng.unif w.rng.upos : ℝ) < Real.exp (-(b * (proposed - current)))) := by
  rw [acceptProposedChange_eq hb]
  refine ⟨_, rfl, ?_⟩
  have h1 : acceptanceProbability b current proposed = Real.exp (-(b * (proposed - current))) := by
    unfold acceptanceProbability
    rw [min_eq_right]
    · congr 1; ring
    · refine Real.exp_le_one_iff.mpr ?_
      nlinarith
  rw [h1]
  simp

/-- C35: a decision uses one uniform draw and changes nothing else. -/
theorem C35_one_draw {C : Compiler} {w : World} {b : ℝ} (hb : w.annealing C = some b) (current proposed : ℝ) :
    (acceptProposedChange C current proposed w).2 = { w with rng := { w.rng with upos := w.rng.upos + 1 } } := by
  rw [acceptProposedChange_eq hb]

/-- C35: in every session, with a non-negative annealing rate the annealing value is non-negative, so the two rules
above apply. -/
theorem C35_rule_applies {τ : Arith} {c : Client} {Cs : List Compiler} (hs : Session τ c Cs) {C : Compiler} (hC : C ∈ Cs)
    (hr : 0 ≤ C.annealingRate) : ∃ b, c.world.annealing C = some b ∧ 0 ≤ b := by
  obtain ⟨b, hb, -, h⟩ := hs.ok.2.alive C hC
  exact ⟨b, hb, h hr⟩

/-- C35: detailed balance for the distribution `exp (-β · cost)`. -/
theorem C35_detailed_balance (b x y : ℝ) :
    Real.exp (-b * x) * acceptanceProbability b x y = Real.exp (-b * y) * acceptanceProbability b y x := by
  have key : ∀ s t : ℝ, Real.exp (-b * s) * acceptanceProbability b s t =
      min (Real.exp (-b * s)) (Real.exp (-b * t)) := by
    intro s t
    unfold acceptanceProbability
    rw [mul_min_of_nonneg _ _ (Real.exp_nonneg _), mul_one, ← Real.exp_add]
    congr 2
    ring
  rw [key, key, min_comm]

/-- A worsening change with β = 2, cost 0 → 1 is accepted for the draw 0.1 but not for the draw 0.2. -/
example (C : Compiler) (hC : C.self = 0) (u : Set.Ico (0 : ℝ) 1) (w : World)
    (hw : w = ⟨[], [], [2], ⟨fun _ => u, fun _ => 0, 0, 0⟩⟩) :
    ∃ a, (acceptProposedChange C 0 1 w).1 = .ok a ∧ (a = true ↔ (u : ℝ) < Real.exp (-2)) := by
  subst hw
  obtain ⟨a, h1, h2⟩ := C35_worse_accepted_iff (C := C) (w := ⟨[], [], [2], ⟨fun _ => u, fun _ => 0, 0, 0⟩⟩) (b := 2)
    (by simp [World.annealing, hC]) (by norm_num) (show (0 : ℝ) < 1 by norm_num)
  exact ⟨a, h1, by rw [h2]; norm_num⟩

/-! ## C36: annealing -/

/-- C36: after a compilation of `k` steps the annealing value has grown by `k · rate`, capped at
`(2 ^ dimension) ^ 2`, for every matrix arithmetic. -/
theorem C36_compile_schedule {τ : Arith} {c : Client} {Cs : List Compiler} (hs : Session τ c Cs) {C : Compiler}
    (hC : C ∈ Cs) (hr : 0 ≤ C.annealingRate) {b : ℝ} (hb : c.world.annealing C = some b) {target : Unitary}
    {threshold : Option ℝ} {m : ℤ} {R : CompilerResult} {w' : World}
    (h : C.compile τ target threshold m c.world = (.ok R, w')) :
    w'.annealing C = some (min (b + R.costByStep.length * C.annealingRate) (((2 : ℝ) ^ C.dimension) ^ 2)) := by
  obtain ⟨b0, hb0, hle, -⟩ := hs.ok.2.alive C hC
  rw [hb] at hb0; cases hb0
  have hp := compile_post (target := target) (threshold := threshold) (m := m) (compile_truthy h) hs.ok.1.wf hb
  rw [h] at hp
  obtain ⟨-, -, -, o', b', -, -, -, h1, h2⟩ := hp.ok R rfl
  unfold World.annealing
  rw [h1, h2.beta, Metropolis.heat_iterate hr hle, (hs.ok.2.dim C hC).2]

/-- C36 for `compile_layered`. -/
theorem C36_compileLayered_schedule {τ : Arith} {c : Client} {Cs : List Compiler} (hs : Session τ c Cs) {C : Compiler}
    (hC : C ∈ Cs) (hr : 0 ≤ C.annealingRate) {b : ℝ} (hb : c.world.annealing C = some b) {target : Unitary}
    {counts : List (Primitive × ℤ)} {threshold : Option ℝ} {m : ℤ} {R : CompilerResult} {w' : World}
    (h : C.compileLayered τ target counts threshold m c.world = (.ok R, w')) :
    w'.annealing C = some (min (b + R.costByStep.length * C.annealingRate) (((2 : ℝ) ^ C.dimension) ^ 2)) := by
  obtain ⟨b0, hb0, hle, -⟩ := hs.ok.2.alive C hC
  rw [hb] at hb0; cases hb0
  have hp := compileLayered_post (target := target) (counts := counts) (threshold := threshold) (m := m)
    hs.ok.1.wf hb
  rw [h] at hp
  obtain ⟨-, -, -, o', b', -, -, -, h1, h2⟩ := hp.ok R rfl
  unfold World.annealing
  rw [h1, h2.beta, Metropolis.heat_iterate hr hle, (hs.ok.2.dim C hC).2]

/-- C36: a new compiler starts at 0. -/
theorem C36_new_compiler {D : ℕ} {prims : List Primitive} {arr : Bool} {probs : Option (List ℝ)} {p rate : ℝ}
    {w w' : World} {C : Compiler} (h : Compiler.new D prims arr probs p rate w = (.ok C, w')) :
    w'.annealing C = some 0 ∧ C.dimension = D ∧ C.annealingRate = rate := by
  obtain ⟨-, -, rfl, rfl⟩ := new_compiler_eq h
  exact ⟨by simp [World.annealing], rfl, rfl⟩

/-- C36: a new compiler's first compilation of `k` steps ends at `min (k · rate) ((2 ^ dimension) ^ 2)`. -/
theorem C36_first_compile {τ : Arith} {c : Client} {Cs : List Compiler} (hs : Session τ c Cs) {D : ℕ}
    {prims : List Primitive} {arr : Bool} {probs : Option (List ℝ)} {p rate : ℝ} (hr : 0 ≤ rate) {C : Compiler}
    {w : World} (hnew : Compiler.new D prims arr probs p rate c.world = (.ok C, w)) {target : Unitary}
    {threshold : Option ℝ} {m : ℤ} {R : CompilerResult} {w' : World}
    (h : C.compile τ target threshold m w = (.ok R, w')) :
    w'.annealing C = some (min (R.costByStep.length * rate) (((2 : ℝ) ^ D) ^ 2)) := by
  obtain ⟨h1, h2, h3⟩ := C36_new_compiler hnew
  have := C36_compile_schedule (Session.newCompiler D prims arr probs p rate hs hnew) (C := C) (by simp)
    (by rw [h3]; exact hr) h1 h
  rw [this, h2, h3, zero_add]

/-- C36: in every state of every session the annealing value is at most `(2 ^ dimension) ^ 2`. -/
theorem C36_never_above_cap {τ : Arith} {c : Client} {Cs : List Compiler} (hs : Session τ c Cs) {C : Compiler}
    (hC : C ∈ Cs) : ∃ b, c.world.annealing C = some b ∧ b ≤ ((2 : ℝ) ^ C.dimension) ^ 2 := by
  obtain ⟨b, hb, h, -⟩ := hs.ok.2.alive C hC
  exact ⟨b, hb, by rw [← (hs.ok.2.dim C hC).2]; exact h⟩

/-- C36: compiling never lowers the annealing value, also when it fails. -/
theorem C36_never_decreases {τ : Arith} {c : Client} {Cs : List Compiler} (hs : Session τ c Cs) {C : Compiler}
    (hC : C ∈ Cs) (hr : 0 ≤ C.annealingRate) (target : Unitary) (threshold : Option ℝ) (m : ℤ) {b : ℝ}
    (hb : c.world.annealing C = some b) :
    ∃ b', (C.compile τ target threshold m c.world).2.annealing C = some b' ∧ b ≤ b' := by
  obtain ⟨b0, hb0, hle, -⟩ := hs.ok.2.alive C hC
  rw [hb] at hb0; cases hb0
  by_cases hT : C.Truthy
  · obtain ⟨k, hk⟩ := (compile_post (target := target) (threshold := threshold) (m := m) hT hs.ok.1.wf hb).beta
    refine ⟨_, hk, ?_⟩
    rw [Metropolis.heat_iterate hr hle]
    refine le_min ?_ hle
    have : (0 : ℝ) ≤ k * C.annealingRate := by positivity
    linarith
  · rcases compile_falsy (τ := τ) (target := target) (threshold := threshold) (m := m) hT c.world with h | h <;>
    · rw [h]; exact ⟨b, hb, le_rfl⟩

/-! ## C38: choice of the primitive -/

/-- C38: without probabilities, primitives with an empty list of allowed qubits might as well not be there. -/
theorem C38_unusable_ignored (τ : Arith) (D : ℕ) (prims : List Primitive) (w : World) :
    createRandomSequenceEntry τ D prims none w =
      createRandomSequenceEntry τ D (prims.filter fun p => p.allowedApplyTo ≠ some []) none w := by
  have hf : prims.filter usable = (prims.filter fun p => p.allowedApplyTo ≠ some []).filter usable := by
    rw [List.filter_filter]
    refine List.filter_congr fun p _ => ?_
    unfold usable
    rcases p.allowedApplyTo with _ | _ | ⟨x, l⟩ <;> simp
  unfold createRandomSequenceEntry createRandomEntryVal
  rw [hf]

/-- C38: a gate that is created is an instance of a primitive whose list of allowed qubits is not empty. -/
theorem C38_chosen_usable {τ : Arith} {D : ℕ} {prims : List Primitive} {probs : Option (List ℝ)} {w w' : World} {r : ℕ}
    (h : createRandomSequenceEntry τ D prims probs w = (.ok r, w')) :
    ∃ x, w'.entries[r]? = some x ∧ ∃ p ∈ prims, p.allowedApplyTo ≠ some [] ∧
      FromPrimitive τ (intLog2 D) p x.toVal := by
  obtain ⟨h1, h2⟩ := createRandomSequenceEntry_wp (τ := τ) (D := D) (prims := prims) (probs := probs) w
  rcases hc : createRandomEntryVal τ D prims probs w.rng with ⟨e | v, r'⟩
  · rw [h1 e r' hc] at h; cases h
  · rw [h2 v r' hc] at h; cases h
    obtain ⟨-, p, hp, hu, hf⟩ := createRandomEntryVal_ok hc
    refine ⟨⟨v, []⟩, by simp, p, hp, fun he => ?_, hf⟩
    simp [usable, he] at hu

/-- C38: with one probability for each primitive, and some primitive with an empty list of allowed qubits, creating a
gate always fails. -/
theorem C38_probabilities_fail (τ : Arith) (D : ℕ) {prims : List Primitive} {probs : List ℝ}
    (hlen : probs.length = prims.length) {p : Primitive} (hp : p ∈ prims) (hempty : p.allowedApplyTo = some [])
    (w : World) : createRandomSequenceEntry τ D prims (some probs) w = (.error .valueError, w) := by
  have hlt : (prims.filter usable).length < prims.length := by
    refine lt_of_le_of_ne (List.length_filter_le _ _) fun he => ?_
    have := List.length_filter_eq_length_iff.mp he p hp
    simp [usable, hempty] at this
  have hv : ¬ Rng.ValidP (prims.filter usable).length probs := fun hv => by
    have := hv.len; omega
  have h1 : createRandomEntryVal τ D prims (some probs) w.rng = (.error .valueError, w.rng) := by
    rw [createRandomEntryVal_eq]
    exact PyM.bind_of_error (Rng.choiceP_invalid hv w.rng)
  exact (createRandomSequenceEntry_wp w).1 _ _ h1

/-! ## C39: choice of the action -/

/-- C39: the four probabilities. -/
theorem C39_action_probabilities {p : ℝ} (h0 : 0 ≤ p) (h1 : p ≤ 1) :
    ∃ q : Action → ℝ, actionProbabilities p = Action.all.map q ∧ (∀ a, 0 ≤ q a) ∧
      q .appendFirst + q .appendLast + q .removeFirst + q .removeLast = 1 ∧
      q .appendFirst + q .appendLast = p ∧ q .appendFirst = q .appendLast ∧ q .removeFirst = q .removeLast := by
  refine ⟨fun a => if a.isAppend then p / 2 else (1 - p) / 2, ?_, ?_, ?_, ?_, ?_, ?_⟩
  · rw [actionProbabilities_eq]; rfl
  · intro a
    dsimp only
    split_ifs
    · linarith
    · linarith
  all_goals simp [Action.isAppend]
  all_goals ring

/-- C39: the action chosen by the draw `u`: the unit interval is divided according to the probabilities. -/
theorem C39_action_choice {C : Compiler} (h0 : 0 ≤ C.appendProbability) (h1 : C.appendProbability ≤ 1) (w : World) :
    ∃ a, (chooseAction C w).1 = .ok a ∧
      (a = .appendFirst ↔ (w.rng.unif w.rng.upos : ℝ) < C.appendProbability / 2) ∧
      (a = .appendLast ↔ C.appendProbability / 2 ≤ (w.rng.unif w.rng.upos : ℝ) ∧
        (w.rng.unif w.rng.upos : ℝ) < C.appendProbability) ∧
      (a = .removeFirst ↔ C.appendProbability ≤ (w.rng.unif w.rng.upos : ℝ) ∧
        (w.rng.unif w.rng.upos : ℝ) < C.appendProbability + (1 - C.appendProbability) / 2) ∧
      (a = .removeLast ↔ C.appendProbability + (1 - C.appendProbability) / 2 ≤ (w.rng.unif w.rng.upos : ℝ)) := by
  rw [chooseAction_eq h0 h1]
  refine ⟨_, rfl, ?_⟩
  generalize ((w.rng.unif w.rng.upos : Set.Ico (0 : ℝ) 1) : ℝ) = u
  generalize C.appendProbability = p at h0 h1
  unfold pick
  split_ifs with h2 h3 h4
  · simp only [true_iff, false_iff, not_and, not_lt, not_le]
    exact ⟨h2, fun h => by linarith, fun h => by linarith, by linarith⟩
  · simp only [true_iff, false_iff, not_and, not_lt, not_le]
    exact ⟨by linarith, ⟨by linarith, h3⟩, fun h => by linarith, by linarith⟩
  · simp only [true_iff, false_iff, not_and, not_lt, not_le]
    exact ⟨by linarith, fun h => by linarith, ⟨by linarith, h4⟩, by linarith⟩
  · simp only [true_iff, false_iff, not_and, not_lt]
    exact ⟨by linarith, fun h => by linarith, fun h => by linarith, by linarith⟩

/-- C39: an append probability outside `[0, 1]` makes every random change fail. -/
theorem C39_outside_raises {τ : Arith} {C : Compiler} (h : ¬ (0 ≤ C.appendProbability ∧ C.appendProbability ≤ 1))
    (counts : List (Primitive × ℤ)) (s : ℕ) (w : World) :
    makeRandomChange τ C s w = (.error .valueError, w) ∧
      makeRandomChangeLayered τ C counts s w = (.error .valueError, w) := by
  rw [makeRandomChange_eq, makeRandomChangeLayered_eq]
  exact ⟨changeWith_error _ h w s, changeWith_error _ h w s⟩

/-- C39: so in exact arithmetic `compile` raises ValueError, unless it need not do anything. -/
theorem C39_outside_compile_raises {c : Client} {Cs : List Compiler} (hs : Session 0 c Cs) {C : Compiler}
    (hC : C ∈ Cs) (hex : ∀ x ∈ c.world.entries, x.toVal.Exact) {n : ℕ} (hD : C.dimension = 2 ^ n)
    (hprims : ∀ p ∈ C.primitives, p.Valid n) (hT : C.Truthy) {target : Unitary} (ht : target.Exact (2 ^ n))
    (hp : ¬ (0 ≤ C.appendProbability ∧ C.appendProbability ≤ 1)) {threshold : Option ℝ}
    (hfar : ¬ Metropolis.GoodEnough threshold (Metropolis.cost n (target.matrix.toMatrix (2 ^ n)) [])) {m : ℤ}
    (hm : 0 < m) : (C.compile 0 target threshold m c.world).1 = .error .valueError := by
  obtain ⟨b, hb, -⟩ := hs.ok.2.alive C hC
  have hx := (compile_post (target := target) (threshold := threshold) (m := m) hT hs.ok.1.wf hb).exact n rfl hD hex
    (fun v hv => generated_good hprims (by rw [← hD]; exact hv)) ht
  obtain ⟨k, hk⟩ : ∃ k, m.toNat = k + 1 := ⟨m.toNat - 1, by omega⟩
  have hprop : C.proposal 0 [] c.world.rng = (.error .valueError, c.world.rng) := by
    unfold Compiler.proposal Metropolis.propose
    rw [raiseUnless_of_not hp]; rfl
  have hstep : Metropolis.step n (target.matrix.toMatrix (2 ^ n)) C.annealingRate C.maxBeta (C.proposal 0)
      ⟨[], b⟩ c.world.rng = (.error .valueError, c.world.rng) := by
    unfold Metropolis.step
    exact PyM.bind_of_error hprop
  have hrun : Metropolis.run n (target.matrix.toMatrix (2 ^ n)) threshold C.annealingRate C.maxBeta (C.proposal 0)
      m.toNat ⟨[], b⟩ c.world.rng = (.error .valueError, c.world.rng) := by
    rw [hk, Metropolis.run, if_neg hfar]
    exact PyM.bind_of_error hstep
  rw [hrun] at hx
  exact hx.1

/-- C39: with append probability 0 the result is always empty, for every matrix arithmetic. -/
theorem C39_zero_gives_empty {τ : Arith} {c : Client} {Cs : List Compiler} (hs : Session τ c Cs) {C : Compiler}
    (hC : C ∈ Cs) (hp : C.appendProbability = 0) {target : Unitary} {threshold : Option ℝ} {m : ℤ}
    {R : CompilerResult} {w' : World} (h : C.compile τ target threshold m c.world = (.ok R, w')) :
    ∃ v, w'.view R.sequence = some v ∧ v.entries = [] := by
  obtain ⟨b, hb, -⟩ := hs.ok.2.alive C hC
  have hpost := compile_post (target := target) (threshold := threshold) (m := m) (compile_truthy h) hs.ok.1.wf hb
  rw [h] at hpost
  obtain ⟨-, -, -, o', b', h1, -, -, -, h4⟩ := hpost.ok R rfl
  refine ⟨_, view_eq_some.mpr ⟨o', h1, rfl⟩, ?_⟩
  refine Metropolis.Walk.inv (P := fun g => g = []) (fun g r new r' hg hpr => ?_) h4 rfl
  subst hg
  rcases (Metropolis.propose_cases hpr).2 with ⟨h5, -⟩ | ⟨-, -, rfl | rfl⟩
  · rw [hp] at h5
    exact absurd h5 (not_lt.mpr (r.unif r.upos).2.1)
  · rfl
  · rfl

/-- C39: with append probability 1 no change removes a gate: each proposal contains the old list of gates with one gate
added at one end. -/
theorem C39_one_only_adds {τ : Arith} {C : Compiler} (hp : C.appendProbability = 1) {g new : List EntryVal} {r r' : Rng}
    (h : C.proposal τ g r = (.ok new, r')) : ∃ v, new = v :: g ∨ new = g ++ [v] := by
  rcases (Metropolis.propose_cases h).2 with ⟨-, vs, h1, h2⟩ | ⟨h3, -⟩
  · obtain ⟨v, -, rfl⟩ := Metropolis.one_ok_iff.mp h1
    exact ⟨v, h2⟩
  · rw [hp] at h3
    exact absurd (r.unif r.upos).2.2 (not_lt.mpr h3)

/-- C39: with append probability 1, what a run of `compile` holds after `j` steps is still there, in one piece, after
`k ≥ j` steps (the budgets `j ≤ k` give the sequences held at those times). -/
theorem C39_one_never_removes {c : Client} {Cs : List Compiler} (hs : Session 0 c Cs) {C : Compiler}
    (hC : C ∈ Cs) (hex : ∀ x ∈ c.world.entries, x.toVal.Exact) {n : ℕ} (hD : C.dimension = 2 ^ n)
    (hprims : ∀ p ∈ C.primitives, p.Valid n) (hT : C.Truthy) {target : Unitary} (ht : target.Exact (2 ^ n))
    (hp : C.appendProbability = 1) {threshold : Option ℝ} {j k : ℤ} (hjk : j ≤ k) {R : CompilerResult} {w' : World}
    (h : C.compile 0 target threshold k c.world = (.ok R, w')) :
    ∃ R0 w0 v0 v, C.compile 0 target threshold j c.world = (.ok R0, w0) ∧ w0.view R0.sequence = some v0 ∧
      w'.view R.sequence = some v ∧ v0.entries <:+: v.entries := by
  obtain ⟨b, hb, -⟩ := hs.ok.2.alive C hC
  have hpost : ∀ m : ℤ, _ := fun m => (compile_post (target := target) (threshold := threshold) (m := m) hT
    hs.ok.1.wf hb).exact n rfl hD hex (fun v hv => generated_good hprims (by rw [← hD]; exact hv)) ht
  have hk := hpost k
  rw [h] at hk
  rcases hrun : Metropolis.run n (target.matrix.toMatrix (2 ^ n)) threshold C.annealingRate C.maxBeta (C.proposal 0)
      k.toNat ⟨[], b⟩ c.world.rng with ⟨e | tr, r⟩
  · rw [hrun] at hk; cases hk.1
  rw [hrun] at hk
  obtain ⟨h1, -, -, o, h2, h3, -⟩ := hk
  cases h1
  obtain ⟨r0, hrun0⟩ := Metropolis.run_take (show j.toNat ≤ k.toNat by omega) hrun
  have hj := hpost j
  rw [hrun0] at hj
  obtain ⟨g1, -, -, o0, g2, g3, -⟩ := hj
  refine ⟨_, _, _, _, Prod.ext g1 rfl, view_eq_some.mpr ⟨o0, g2, rfl⟩, view_eq_some.mpr ⟨o, h2, rfl⟩, ?_⟩
  simp only [viewOf]
  rw [h3, g3]
  have hchain := Metropolis.run_chain (Q := fun g g' => g <:+: g') (fun g => List.infix_rfl)
    (fun g r new r' hpr => by
      obtain ⟨v, rfl | rfl⟩ := C39_one_only_adds hp hpr
      · exact (List.suffix_cons v g).isInfix
      · exact (List.prefix_append g [v]).isInfix) hrun
  clear hrun hrun0 h3 g3 g1 g2 h h2 hpost
  have hpw : ∀ (l : List Metropolis.State) (x : Metropolis.State) (i : ℕ),
      List.IsChain (fun s s' : Metropolis.State => s.gates <:+: s'.gates) (x :: l) →
      ((l.take i).getLast?.getD x).gates <:+: (l.getLast?.getD x).gates := by
    intro l
    induction l with
    | nil => intro x i _; simp
    | cons a l ih =>
      intro x i hch
      obtain ⟨hxa, hl⟩ := List.isChain_cons_cons.mp hch
      rw [getLast?_cons_getD]
      cases i with
      | zero =>
        refine hxa.trans ?_
        simpa using ih a 0 hl
      | succ i =>
        rw [List.take_succ_cons, getLast?_cons_getD]
        exact ih a i hl
  exact hpw tr ⟨[], b⟩ j.toNat hchain

end Stoq
