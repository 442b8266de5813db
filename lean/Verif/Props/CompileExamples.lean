import Verif.Props.Layers
import Verif.Props.CompileRules
import Verif.Props.SequenceExamples

/-!
# Concrete sessions that meet the hypotheses of C30 - C41
-/

namespace Stoq

open World Compiler Matrix

/-- The gate `diag(-i, i)` on qubit 0, the only primitive in these examples. -/
noncomputable def zPrim : Primitive := ⟨.inl (tinyPhase (Real.pi / 2)), some [[0]]⟩

noncomputable def zGate : EntryVal := ⟨tinyPhase (Real.pi / 2), [0]⟩

theorem zPrim_valid {n : ℕ} (hn : 1 ≤ n) : zPrim.Valid n := by
  refine ⟨1, le_rfl, hn, tinyPhase_exact _, ?_⟩
  intro l hl
  obtain rfl := List.mem_singleton.mp hl
  refine ⟨by simp, rfl, fun q hq => ?_⟩
  obtain rfl := List.mem_singleton.mp hq
  exact ⟨le_rfl, by exact_mod_cast hn⟩

theorem zPrim_gen (τ : Arith) (D : ℕ) (r : Rng) :
    createRandomEntryVal τ D [zPrim] none r = (.ok zGate, { r with npos := r.npos + 2 }) := by
  have hf : [zPrim].filter usable = [zPrim] := by simp [usable, zPrim]
  rw [createRandomEntryVal_eq, hf]
  obtain ⟨i, h1, hi⟩ := Rng.choice_ok (n := 1) (by norm_num) r
  obtain rfl : i = 0 := by omega
  rw [show Rng.choiceOpt [zPrim].length none = Rng.choice 1 from rfl, PyM.bind_of_ok h1]
  obtain ⟨j, h2, hj⟩ := Rng.choice_ok (n := 1) (by norm_num) { r with npos := r.npos + 1 }
  obtain rfl : j = 0 := by omega
  have h3 : pickQubits (intLog2 D) zPrim (tinyPhase (Real.pi / 2)) { r with npos := r.npos + 1 } =
      (.ok zGate, { r with npos := r.npos + 2 }) := by
    have : pickQubits (intLog2 D) zPrim (tinyPhase (Real.pi / 2)) = (do
        let k ← Rng.choice 1
        match ([[0]] : List (List ℤ))[k]? with
        | none => PyM.raise .indexError
        | some applyTo => PyM.lift (EntryVal.new (tinyPhase (Real.pi / 2)) applyTo)) := rfl
    rw [this, PyM.bind_of_ok h2]
    have h4 : EntryVal.new (tinyPhase (Real.pi / 2)) [0] = .ok zGate :=
      entry_new_ok (qs := [0]) (by simp) (by simp) rfl
    change PyM.lift (EntryVal.new (tinyPhase (Real.pi / 2)) [0]) _ = _
    rw [h4]; rfl
  exact h3

/-- The identity as target. -/
noncomputable def idTarget : Unitary := tinyPhase 0

theorem idTarget_exact : idTarget.Exact (2 ^ 1) := tinyPhase_exact 0

theorem idTarget_matrix : idTarget.matrix.toMatrix (2 ^ 1) = 1 := by
  have := tinyPhase_toMatrix 0
  rw [show (2 ^ 1 : ℕ) = 2 from rfl]
  rw [idTarget, this]
  ext i j; fin_cases i <;> fin_cases j <;> simp

theorem cost_nil : Metropolis.cost 1 1 [] = 0 := by
  unfold Metropolis.cost circuit
  rw [overlap_self (by norm_num) (one_mem _)]; ring

theorem cost_z : Metropolis.cost 1 1 [zGate] = 1 := by
  have h : circuit 1 [zGate] = (tinyPhase (Real.pi / 2)).matrix.toMatrix 2 := by
    unfold circuit circuit EntryVal.op
    rw [one_mul]
    ext i j
    fin_cases i <;> fin_cases j <;> simp [embed, AgreeOff, gather, qubit, zGate]
  unfold Metropolis.cost overlap
  rw [h, tinyPhase_toMatrix]
  have : ((1 : Matrix (Fin (2 ^ 1)) (Fin (2 ^ 1)) ℂ)ᴴ *
      !![Complex.exp (-((Real.pi / 2 : ℝ) : ℂ) * Complex.I), 0;
        0, Complex.exp (((Real.pi / 2 : ℝ) : ℂ) * Complex.I)]).trace = 0 := by
    rw [conjTranspose_one, one_mul]
    simp only [Matrix.trace, Matrix.diag]
    change ∑ i : Fin 2, _ = _
    rw [Fin.sum_univ_two]
    have h2 := Complex.two_cos (((Real.pi / 2 : ℝ) : ℂ))
    rw [← Complex.ofReal_cos, Real.cos_pi_div_two] at h2
    simp at h2 ⊢
    rw [add_comm]; exact h2.symm
  rw [this]; simp

/-- A compiler for one qubit with this primitive. -/
noncomputable def zCompiler (p rate : ℝ) (k : ℕ) : Compiler :=
  ⟨2, [zPrim], false, none, ((2 : ℝ) ^ 2) ^ 2, rate, p, k⟩

theorem zCompiler_new (p rate : ℝ) (w : World) :
    Compiler.new 2 [zPrim] false none p rate w =
      (.ok (zCompiler p rate w.betas.length), { w with betas := w.betas ++ [0] }) :=
  new_compiler_ok false none p rate (by norm_num) (by intro q hq; obtain rfl := List.mem_singleton.mp hq; exact le_rfl) w

theorem zCompiler_truthy (p rate : ℝ) (k : ℕ) : (zCompiler p rate k).Truthy :=
  ⟨by simp [zCompiler], by simp [zCompiler]⟩

theorem zCompiler_prims (p rate : ℝ) (k : ℕ) : ∀ q ∈ (zCompiler p rate k).primitives, q.Valid 1 := by
  intro q hq
  obtain rfl := List.mem_singleton.mp hq
  exact zPrim_valid le_rfl

theorem zCompiler_choice (p rate : ℝ) (k : ℕ) :
    ChoiceOk (zCompiler p rate k).primitives (zCompiler p rate k).probabilities := by
  simp [ChoiceOk, zCompiler, usable, zPrim]

/-- A client that made one compiler and nothing else. -/
noncomputable def zClient (rng : Rng) : Client :=
  { Client.start rng with world := { (Client.start rng).world with betas := [0] } }

theorem zSession (τ : Arith) (rng : Rng) (p rate : ℝ) : Session τ (zClient rng) [zCompiler p rate 0] :=
  Session.newCompiler 2 [zPrim] false none p rate (Session.start rng) (zCompiler_new p rate (Client.start rng).world)

theorem zClient_entries (rng : Rng) : ∀ x ∈ (zClient rng).world.entries, x.toVal.Exact := by
  simp [zClient, Client.start]

/-- C30, C33: a budget of five steps. -/
example (rng : Rng) : ∃ R w', (zCompiler (1 / 2) 1 0).compile 0 idTarget (some 2) 5 (zClient rng).world = (.ok R, w') ∧
    (R.costByStep.length : ℤ) ≤ 5 := by
  obtain ⟨R, w', h⟩ := C33_compile_never_raises (zSession 0 rng (1 / 2) 1) (C := zCompiler (1 / 2) 1 0) (by simp) (zClient_entries rng)
    (n := 1) rfl (zCompiler_prims _ _ _) (zCompiler_truthy _ _ _) (zCompiler_choice _ _ _)
    ⟨by norm_num [zCompiler], by norm_num [zCompiler]⟩ idTarget_exact (some 2) 5
  exact ⟨R, w', h, by simpa using (C30_compile_stops (zSession 0 rng (1 / 2) 1) (by simp) h).1⟩

/-- C30, C33, C40: three steps with layers of two gates. -/
example (rng : Rng) : ∃ R w', (zCompiler (1 / 2) 1 0).compileLayered 0 idTarget [(zPrim, 2)] (some 2) 3
    (zClient rng).world = (.ok R, w') ∧ (R.costByStep.length : ℤ) ≤ 3 ∧
    ∃ v k, w'.view R.sequence = some v ∧ v.entries.length = 2 * k := by
  obtain ⟨R, w', h⟩ := C33_compileLayered_never_raises (zSession 0 rng (1 / 2) 1) (C := zCompiler (1 / 2) 1 0) (by simp)
    (zClient_entries rng) (n := 1) rfl (counts := [(zPrim, 2)])
    (by intro pc hpc; obtain rfl := List.mem_singleton.mp hpc; exact zPrim_valid le_rfl)
    (by intro pc hpc _; obtain rfl := List.mem_singleton.mp hpc; simp [zPrim])
    ⟨by norm_num [zCompiler], by norm_num [zCompiler]⟩ idTarget_exact (some 2) 3
  refine ⟨R, w', h, by simpa using (C30_compileLayered_stops (zSession 0 rng (1 / 2) 1) (by simp) h).1, ?_⟩
  obtain ⟨v, layers, h1, -, -, h2, h3⟩ := C40_whole_layers (zSession 0 rng (1 / 2) 1) (by simp)
    (by intro pc hpc; obtain rfl := List.mem_singleton.mp hpc; norm_num) h
  refine ⟨v, layers.length, h1, ?_⟩
  simp at h2
  omega

/-- C31, C32: the hypotheses hold for this session. -/
example (rng : Rng) : FollowsWalk 1 (zCompiler (1 / 2) 1 0) idTarget (some 2) 5 ((zCompiler (1 / 2) 1 0).proposal 0) 0
      (zClient rng).world ((zCompiler (1 / 2) 1 0).compile 0 idTarget (some 2) 5 (zClient rng).world) ∧
    CostsAreDistances 1 idTarget (fun m => (zCompiler (1 / 2) 1 0).compile 0 idTarget (some 2) m) 5
      (zClient rng).world :=
  ⟨C31_compile_is_walk (zSession 0 rng (1 / 2) 1) (by simp) (zClient_entries rng) rfl (zCompiler_prims _ _ _)
    (zCompiler_truthy _ _ _) idTarget_exact rfl _ _,
   C32_compile_costs (zSession 0 rng (1 / 2) 1) (by simp) (zClient_entries rng) rfl (zCompiler_prims _ _ _)
    (zCompiler_truthy _ _ _) idTarget_exact _ _⟩

/-! ## One step in detail -/

theorem run_one {n : ℕ} {T : Matrix (Fin (2 ^ n)) (Fin (2 ^ n)) ℂ} {threshold : Option ℝ} {rate cap : ℝ}
    {prop : List EntryVal → PyM Rng (List EntryVal)} {st : Metropolis.State} {r r1 : Rng} {new : List EntryVal}
    (hg : ¬ Metropolis.GoodEnough threshold (Metropolis.cost n T st.gates)) (hp : prop st.gates r = (.ok new, r1))
    (k : ℕ) : Metropolis.run n T threshold rate cap prop (k + 1) st r =
      (do
        let rest ← Metropolis.run n T threshold rate cap prop k
          ⟨if (r1.unif r1.upos : ℝ) < min 1 (Real.exp (-(min (st.beta + rate) cap) *
            (Metropolis.cost n T new - Metropolis.cost n T st.gates))) then new else st.gates,
            min (st.beta + rate) cap⟩
        return ⟨if (r1.unif r1.upos : ℝ) < min 1 (Real.exp (-(min (st.beta + rate) cap) *
            (Metropolis.cost n T new - Metropolis.cost n T st.gates))) then new else st.gates,
            min (st.beta + rate) cap⟩ :: rest : PyM Rng (List Metropolis.State))
        { r1 with upos := r1.upos + 1 } := by
  rw [Metropolis.run, if_neg hg]
  have : Metropolis.step n T rate cap prop st r = (.ok
      ⟨if (r1.unif r1.upos : ℝ) < min 1 (Real.exp (-(min (st.beta + rate) cap) *
            (Metropolis.cost n T new - Metropolis.cost n T st.gates))) then new else st.gates,
            min (st.beta + rate) cap⟩, { r1 with upos := r1.upos + 1 }) := by
    unfold Metropolis.step
    rw [PyM.bind_of_ok hp, PyM.bind_of_ok (Rng.randomSample_eq r1)]
    split_ifs <;> rfl
  rw [PyM.bind_of_ok this]

/-- The random source that always returns 1/4 and 0. -/
noncomputable def quarter : Rng := ⟨fun _ => ⟨1 / 4, by norm_num, by norm_num⟩, fun _ => 0, 0, 0⟩

theorem z_proposal (rate : ℝ) (k : ℕ) (u x : ℕ) (g : List EntryVal) :
    (zCompiler 1 rate k).proposal 0 g { quarter with upos := u, npos := x } =
      (.ok (zGate :: g), { quarter with upos := u + 1, npos := x + 2 }) := by
  unfold Compiler.proposal Metropolis.propose
  rw [raiseUnless_of (by norm_num [zCompiler])]
  have e : (PyM.lift (Except.ok ()) : PyM Rng Unit) { quarter with upos := u, npos := x } =
    (.ok (), { quarter with upos := u, npos := x }) := rfl
  rw [PyM.bind_of_ok e, PyM.bind_of_ok (Rng.randomSample_eq _)]
  rw [if_pos (by norm_num [zCompiler, quarter])]
  have h1 : Metropolis.one (createRandomEntryVal 0 (zCompiler 1 rate k).dimension (zCompiler 1 rate k).primitives
      (zCompiler 1 rate k).probabilities) { quarter with upos := u + 1, npos := x } =
      (.ok [zGate], { quarter with upos := u + 1, npos := x + 2 }) :=
    Metropolis.one_ok_iff.mpr ⟨zGate, zPrim_gen 0 2 _, rfl⟩
  rw [PyM.bind_of_ok h1]
  rfl

/-- One step of `compile` from annealing value `b ≥ 0`: the gate is kept iff `1/4 < exp (-(b+1))`. -/
theorem z_run (b : ℝ) (hb : 0 ≤ b) (hb' : b ≤ 15) (k u x : ℕ) :
    Metropolis.run 1 (idTarget.matrix.toMatrix (2 ^ 1)) (some 2) 1 (((2 : ℝ) ^ 2) ^ 2)
      ((zCompiler 1 1 k).proposal 0) 1 ⟨[], b⟩ { quarter with upos := u, npos := x } =
    (.ok [⟨if 1 / 4 < Real.exp (-(b + 1)) then [zGate] else [], b + 1⟩],
      { quarter with upos := u + 2, npos := x + 2 }) := by
  rw [idTarget_matrix, run_one (by rw [cost_nil]; norm_num [Metropolis.GoodEnough]) (z_proposal 1 k u x []) 0,
    Metropolis.run]
  have h1 : min (b + 1) (((2 : ℝ) ^ 2) ^ 2) = b + 1 := min_eq_left (by norm_num; linarith)
  simp only [h1, cost_nil, cost_z]
  have h2 : min 1 (Real.exp (-(b + 1) * (1 - 0))) = Real.exp (-(b + 1)) := by
    rw [min_eq_right]
    · congr 1; ring
    · refine Real.exp_le_one_iff.mpr ?_; linarith
  rw [h2]
  have h3 : (quarter.unif (u + 1) : ℝ) = 1 / 4 := rfl
  rw [h3]
  rfl

end Stoq
