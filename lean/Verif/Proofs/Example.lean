import Verif.Spec.Example
import Verif.Proofs.RepoSearch
import Verif.Proofs.Several
import Verif.Props.CompileRules
import Verif.Props.Task

/-! # The reports of the example notebook -/

namespace Stoq

open Matrix

namespace Metropolis

variable {n : ℕ} {T : Matrix (Fin (2 ^ n)) (Fin (2 ^ n)) ℂ} {threshold : Option ℝ} {rate cap : ℝ}
  {prop : List EntryVal → PyM Rng (List EntryVal)}

theorem run_stops {k : ℕ} {st : State} {r r' : Rng} {tr : List State}
    (h : run n T threshold rate cap prop k st r = (.ok tr, r')) :
    tr.length = k ∨ GoodEnough threshold (cost n T (tr.getLast?.getD st).gates) := by
  induction k generalizing st r tr with
  | zero => cases h; exact .inl rfl
  | succ k ih =>
    rcases run_succ_ok h with ⟨hg, rfl, -⟩ | ⟨st', r1, rest, -, -, h2, rfl⟩
    · exact .inr hg
    · rcases ih h2 with h3 | h3
      · exact .inl (by simp [h3])
      · refine .inr ?_
        rw [List.getLast?_cons]
        exact h3

theorem run_short (hP : ∀ g r new r', prop g r = (.ok new, r') → new.length ≤ g.length + 1) {k : ℕ} {st : State}
    {r r' : Rng} {tr : List State} (h : run n T threshold rate cap prop k st r = (.ok tr, r')) :
    (tr.getLast?.getD st).gates.length ≤ st.gates.length + tr.length := by
  induction k generalizing st r tr with
  | zero => cases h; simp
  | succ k ih =>
    rcases run_succ_ok h with ⟨-, rfl, -⟩ | ⟨st', r1, rest, -, h1, h2, rfl⟩
    · simp
    · have h3 := ih h2
      have h4 : st'.gates.length ≤ st.gates.length + 1 := by
        obtain ⟨new, r2, h5, -, -, h6⟩ := step_cases h1
        rcases h6 with h6 | h6
        · rw [h6]; omega
        · rw [h6]; exact hP _ _ _ _ h5
      rw [List.getLast?_cons, Option.getD_some, List.length_cons]
      omega

theorem run_nil_iff {k : ℕ} (hk : 0 < k) {st : State} {r r' : Rng} {tr : List State}
    (h : run n T threshold rate cap prop k st r = (.ok tr, r')) : tr = [] ↔ GoodEnough threshold (cost n T st.gates) := by
  obtain ⟨k, rfl⟩ : ∃ j, k = j + 1 := ⟨k - 1, by omega⟩
  rcases run_succ_ok h with ⟨hg, rfl, -⟩ | ⟨st', r1, rest, hg, -, -, rfl⟩
  · simp [hg]
  · simp [hg]

end Metropolis

namespace Example

open Tests

variable {c : Client} {Cs : List Compiler} {p : Plain}

theorem perform_mirror {α : Type} (h : Mirror c Cs p) {op : Op} (hq : op.OnQubits) (hn : op.NoSharedInverse c)
    {f : Client.Obs → Option α} {o : Plain.Obs} (ho : (p.step op).1 = .ok o) {a : α}
    (hf : ∀ obs, SameObs obs o → f obs = some a) :
    ∃ c', perform 0 op f c = (.ok a, c') ∧ Mirror c' Cs (p.step op).2 ∧ c'.world.betas = c.world.betas ∧
      c'.world.rng = c.world.rng := by
  have h1 := C59_results h hq hn
  have h2 := step_frame h.rel.1.ok.1 op
  have h3 := Mirror.op op h hq hn
  rw [ho] at h1
  unfold perform
  rcases hx : c.step 0 op with ⟨e | obs, c'⟩
  · rw [hx] at h1; exact absurd h1 (by simp [SameResult])
  · rw [hx] at h1 h2 h3
    simp only [SameResult] at h1
    simp only [hf obs h1]
    exact ⟨c', rfl, h3, h2.betas, h2.rng⟩

/-- The hypotheses on the compiler and the target of a report. -/
structure Good (n : ℕ) (C : Compiler) (target : Unitary) : Prop where
  dim : C.dimension = 2 ^ n
  valid : ∀ q ∈ C.primitives, q.Valid n
  truthy : C.Truthy
  choice : ChoiceOk C.primitives C.probabilities
  append : 0 ≤ C.appendProbability ∧ C.appendProbability ≤ 1
  rate : 0 ≤ C.annealingRate
  exact : target.Exact (2 ^ n)

theorem compiled_mirror (h : Mirror c Cs p) {C : Compiler} (hC : C ∈ Cs) {n : ℕ} {target : Unitary} (hg : Good n C target)
    {b : ℝ} (hb : c.world.annealing C = some b) {m : ℕ} (hm : 0 < m) :
    ∃ R c' v, compiled 0 C target m c = (.ok (p.seqs.length, R), c') ∧ v.dimension = 2 ^ n ∧
      Mirror c' Cs { p with seqs := p.seqs ++ [v] } ∧
      c'.world.annealing C = some (min (b + R.length * C.annealingRate) (((2 : ℝ) ^ C.dimension) ^ 2)) ∧
      (R = [] ↔ Metropolis.GoodEnough none (Metropolis.cost n (target.matrix.toMatrix (2 ^ n)) [])) ∧ R.length ≤ m ∧
      (R.length = m ∨ Metropolis.GoodEnough none (Metropolis.cost n (target.matrix.toMatrix (2 ^ n)) v.entries)) ∧
      v.entries.length ≤ R.length ∧
      (∀ x, R.getLast? = some x → x = Metropolis.cost n (target.matrix.toMatrix (2 ^ n)) v.entries ∧ 0 ≤ x ∧ x ≤ 1) ∧
      (∀ g ∈ v.entries, g.WF ∧ ∃ q ∈ C.primitives, FromPrimitive 0 n q g) ∧
      ∃ tr, Metropolis.run n (target.matrix.toMatrix (2 ^ n)) none C.annealingRate (((2 : ℝ) ^ 2 ^ n) ^ 2) (C.proposal 0) m
        ⟨[], b⟩ c.world.rng = (.ok tr, c'.world.rng) ∧ v.entries = (tr.getLast?.getD ⟨[], b⟩).gates ∧
        c'.world.annealing C = some (tr.getLast?.getD ⟨[], b⟩).beta := by
  obtain ⟨R, w', e⟩ := C33_compile_never_raises h.rel.1 hC h.rel.2.exact hg.dim hg.valid hg.truthy hg.choice hg.append hg.exact
    none m
  have hf := C31_compile_is_walk h.rel.1 hC h.rel.2.exact hg.dim hg.valid hg.truthy hg.exact hb none m
  have hb' := C36_compile_schedule h.rel.1 hC hg.rate hb e
  have hcosts := (C32_compile_costs h.rel.1 hC h.rel.2.exact hg.dim hg.valid hg.truthy hg.exact none m R w' e).1
  obtain ⟨v, hv, hd, -, hp⟩ := C34_compile_provenance h.rel.1 hC e
  rw [e] at hf
  unfold FollowsWalk at hf
  rcases hx : Metropolis.run n (target.matrix.toMatrix (2 ^ n)) none C.annealingRate (((2 : ℝ) ^ 2 ^ n) ^ 2) (C.proposal 0)
    (m : ℤ).toNat ⟨[], b⟩ c.world.rng with ⟨e' | tr, r'⟩
  · rw [hx] at hf; cases hf.1
  rw [hx] at hf
  obtain ⟨hrng, R', hR, hc, ⟨undo, hv'⟩, hbeta, -⟩ := hf
  cases hR
  rw [Int.toNat_natCast] at hx
  simp only at hv'
  rw [hv] at hv'; cases hv'
  have hlen : c.seqs.length = p.seqs.length := h.rel.2.seqs.length_eq
  have hrun : (Task.compile C target none m).run 0 c.world = (.ok R.sequence, w') := by
    simp only [Task.run]
    rw [PyM.bind_of_ok e]; rfl
  have hM := Mirror.taskOk (Task.compile C target none m) h hC ⟨n, hg.dim, hg.valid, hg.exact⟩ hrun hv
  rw [Client.task_eq.1 _ _ hrun] at hM
  have hl : R.costByStep.length = tr.length := by rw [hc, List.length_map]
  refine ⟨R.costByStep, _, _, ?_, rfl, hM, hb', ?_, ?_, ?_, ?_, ?_, ?_, tr, ?_, rfl, hbeta⟩
  · unfold compiled
    rw [e, hlen]
  · rw [← Metropolis.run_nil_iff hm hx, hc]; simp
  · rw [hl]; exact Metropolis.run_length hx
  · rw [hl]; exact Metropolis.run_stops hx
  · rw [hl]
    simpa using Metropolis.run_short (fun _ _ _ _ h => proposal_length h) hx
  · intro x hx'
    refine ⟨?_, hcosts x (List.mem_of_getLast? hx')⟩
    rw [hc, List.getLast?_map] at hx'
    obtain ⟨st, h1, rfl⟩ := Option.map_eq_some_iff.mp hx'
    simp only [h1, Option.getD_some]
  · intro g hg'
    obtain ⟨h1, q, h2, h3⟩ := hp g hg'
    rw [hg.dim, show intLog2 (2 ^ n) = n from log2_pow n] at h3
    exact ⟨h1, q, h2, h3⟩
  · rw [hx, ← hrng]

/-- What a report does. -/
theorem report_mirror (h : Mirror c Cs p) {C : Compiler} (hC : C ∈ Cs) {n : ℕ} {target : Unitary} (hg : Good n C target)
    {b : ℝ} (hb : c.world.annealing C = some b) {m : ℕ} (hm : 0 < m) (fmt : ℕ → ℝ → String) :
    (Metropolis.GoodEnough none (Metropolis.cost n (target.matrix.toMatrix (2 ^ n)) []) →
      (report 0 fmt C m target c).1 = .error .indexError) ∧
    (¬ Metropolis.GoodEnough none (Metropolis.cost n (target.matrix.toMatrix (2 ^ n)) []) →
      ∃ P c' v, report 0 fmt C m target c = (.ok P, c') ∧ Mirror c' Cs { p with seqs := p.seqs ++ [v] } ∧ v.dimension = 2 ^ n ∧
        P.Describes n (target.matrix.toMatrix (2 ^ n)) fmt m v.entries ∧
        c'.world.annealing C = some (min (b + P.steps * C.annealingRate) (((2 : ℝ) ^ C.dimension) ^ 2)) ∧
        (∀ g ∈ v.entries, g.WF ∧ ∃ q ∈ C.primitives, FromPrimitive 0 n q g) ∧
        ∃ tr, Metropolis.run n (target.matrix.toMatrix (2 ^ n)) none C.annealingRate (((2 : ℝ) ^ 2 ^ n) ^ 2) (C.proposal 0) m
          ⟨[], b⟩ c.world.rng = (.ok tr, c'.world.rng) ∧ v.entries = (tr.getLast?.getD ⟨[], b⟩).gates ∧
          c'.world.annealing C = some (tr.getLast?.getD ⟨[], b⟩).beta) := by
  obtain ⟨R, c1, v, e1, hd, h1, hb1, h2, h3, h4, h5, h6, h7, tr, h11, h12, h13⟩ := compiled_mirror h hC hg hb hm
  obtain ⟨c2, e2, h8, hb2, hr2⟩ := perform_mirror (α := ℕ) h1 (op := .getLength p.seqs.length) trivial trivial
    (f := fun | .length n => some n | _ => none) (o := .length v.entries.length) (a := v.entries.length)
    (by simp [Plain.step, Plain.with_]) (fun obs ho => by cases obs <;> simp_all [SameObs])
  obtain ⟨c3, e3, h9, hb3, hr3⟩ := perform_mirror (α := String) h8 (op := .text .qasm fmt p.seqs.length) trivial trivial
    (f := fun | .text t => some t | _ => none) (o := .text (TextKind.text .qasm fmt v.entries))
    (a := TextKind.text .qasm fmt v.entries)
    (by simp [Plain.step, Plain.with_]) (fun obs ho => by cases obs <;> simp_all [SameObs])
  have e : report 0 fmt C m target c = (do
      let cost ← PyM.lift (lastCost R)
      let text ← perform 0 (.text .qasm fmt p.seqs.length) (fun | .text t => some t | _ => none)
      return ⟨v.entries.length, cost, R.length, text⟩ : PyM Client Printed) c2 := by
    unfold report length
    rw [PyM.bind_of_ok e1]
    exact PyM.bind_of_ok e2
  rw [e]
  constructor
  · intro hgood
    rw [h2.mpr hgood]
    rfl
  · intro hgood
    have hne : R ≠ [] := fun hR => hgood (h2.mp hR)
    obtain ⟨x, hx⟩ : ∃ x, R.getLast? = some x := ⟨_, List.getLast?_eq_some_getLast hne⟩
    obtain ⟨hx1, hx2, hx3⟩ := h6 x hx
    have hl : (PyM.lift (lastCost R) : PyM Client ℝ) c2 = (.ok x, c2) := by
      unfold lastCost
      rw [hx]; rfl
    refine ⟨⟨v.entries.length, x, R.length, TextKind.text .qasm fmt v.entries⟩, c3, v, ?_, ?_, hd, ?_, ?_, h7, tr, ?_, h12, ?_⟩
    · rw [PyM.bind_of_ok hl, PyM.bind_of_ok e3]; rfl
    · have : (({ p with seqs := p.seqs ++ [v] } : Plain).step (.getLength p.seqs.length)).2 = { p with seqs := p.seqs ++ [v] } := by
        simp [Plain.step, Plain.with_]
      rw [this] at h9
      have : (({ p with seqs := p.seqs ++ [v] } : Plain).step (.text .qasm fmt p.seqs.length)).2 =
          { p with seqs := p.seqs ++ [v] } := by
        simp [Plain.step, Plain.with_]
      rwa [this] at h9
    · refine ⟨rfl, hx1, hx2, hx3, List.length_pos_of_ne_nil hne, h3, fun hlt => ?_, h5, rfl⟩
      have h10 := h4.resolve_left (by simp only at hlt; omega)
      rw [← hx1] at h10
      exact (le_abs_self _).trans h10
    · unfold World.annealing at hb1 ⊢
      rw [hb3, hb2]
      exact hb1
    · rw [hr3, hr2]; exact h11
    · unfold World.annealing at h13 ⊢
      rw [hb3, hb2]
      exact h13

/-- The gates of the notebook. -/
theorem native_of {xy ms : ParamUnitary} (hxy : ParamDefinitions.rotationXY 0 = .ok xy) (hms : ParamDefinitions.xx 0 = .ok ms)
    {v : EntryVal} (hv : v.WF) {q : Primitive} (hq : q ∈ ([⟨.inr xy, none⟩, ⟨.inr ms, none⟩] : List Primitive))
    (h : FromPrimitive 0 2 q v) : Native v := by
  obtain ⟨⟨xy', e1, -, h1⟩, -, ⟨ms', e2, -, h2⟩⟩ := C27_parameterized
  rw [hxy] at e1; cases e1
  rw [hms] at e2; cases e2
  have hn := hv.nodup
  have hd := hv.dim
  simp only [List.mem_cons, List.not_mem_nil, or_false] at hq
  rcases hq with rfl | rfl
  · obtain ⟨⟨values, hl, hr, hu⟩, -, hlt⟩ := h
    left
    rw [ParamDefinitions.rotationXY_eq] at hxy
    cases hxy
    obtain ⟨θ, φ, rfl⟩ := List.length_eq_two.mp hl
    simp only [List.zip_cons_cons, List.zip_nil_right, List.mem_cons, List.not_mem_nil, or_false, forall_eq_or_imp,
      forall_eq] at hr
    obtain ⟨u, f1, f2, f3, f4, f5⟩ := h1 θ φ hr.1 hr.2
    rw [f1] at hu
    cases hu
    have hlen : v.applyTo.length = 1 := by
      have : (2 : ℕ) ^ 1 = 2 ^ v.applyTo.length := by rw [← hd]; exact f2.dim.symm
      exact (Nat.pow_right_injective le_rfl this).symm
    obtain ⟨i, hi⟩ := List.length_eq_one_iff.mp hlen
    exact ⟨θ, φ, i, hr.1, hr.2, hlt i (by simp [hi]), hi, f3, f4, f5⟩
  · obtain ⟨⟨values, hl, hr, hu⟩, -, hlt⟩ := h
    right
    rw [ParamDefinitions.xx_eq] at hms
    cases hms
    obtain ⟨θ, rfl⟩ := List.length_eq_one_iff.mp hl
    simp only [List.zip_cons_cons, List.zip_nil_right, List.mem_cons, List.not_mem_nil, or_false, forall_eq] at hr
    obtain ⟨u, f1, f2, f3, f4, f5⟩ := h2 θ hr
    rw [f1] at hu
    cases hu
    have hlen : v.applyTo.length = 2 := by
      have : (2 : ℕ) ^ 2 = 2 ^ v.applyTo.length := by rw [← hd]; exact f2.dim.symm
      exact (Nat.pow_right_injective le_rfl this).symm
    obtain ⟨i, j, hij⟩ := List.length_eq_two.mp hlen
    rw [hij] at hn
    have hi := hlt i (by simp [hij])
    have hj := hlt j (by simp [hij])
    refine ⟨θ, i, j, hr, ?_, hij, f3, f4, f5⟩
    simp only [List.nodup_cons, List.mem_singleton] at hn
    omega

/-- The Molmer-Sorensen gate is far from the identity. -/
theorem overlap_xx (θ : ℝ) : overlap (Gate.rot Gate.XX θ) 1 = |Real.cos (θ / 2)| := by
  unfold overlap Gate.rot
  rw [mul_one, trace_conjTranspose, norm_star, trace_sub, trace_smul, trace_smul, trace_one]
  have : Gate.XX.trace = 0 := by
    simp only [Matrix.trace, Gate.XX, Matrix.diag_apply]
    refine Finset.sum_eq_zero fun i _ => ?_
    fin_cases i <;> simp
  rw [this, smul_zero, sub_zero, smul_eq_mul, norm_mul, Complex.norm_real, Real.norm_eq_abs]
  simp

theorem ms_far : (1 / 100000000 : ℝ) < 1 - overlap (Gate.rot Gate.XX (2 * (Real.pi / 4))) 1 := by
  rw [overlap_xx, show 2 * (Real.pi / 4) / 2 = Real.pi / 4 by ring, Real.cos_pi_div_four, abs_of_nonneg (by positivity)]
  have : Real.sqrt 2 < 1.5 := by
    rw [Real.sqrt_lt' (by norm_num)]; norm_num
  linarith

theorem goodEnough_iff {n : ℕ} {T V : Matrix (Fin (2 ^ n)) (Fin (2 ^ n)) ℂ} (hT : T ∈ unitaryGroup (Fin (2 ^ n)) ℂ)
    (h : SamePhase T V) : Metropolis.GoodEnough none (Metropolis.cost n T []) ↔ 1 - overlap V 1 ≤ 1 / 100000000 := by
  unfold Metropolis.GoodEnough Metropolis.cost
  rw [show circuit n [] = 1 from rfl, ← overlap_congr h (SamePhase.refl 1)]
  rw [abs_of_nonneg (by linarith [overlap_le_one hT (one_mem (unitaryGroup (Fin (2 ^ n)) ℂ))])]

theorem Printed.Describes.congr {n : ℕ} {T V : Matrix (Fin (2 ^ n)) (Fin (2 ^ n)) ℂ} {fmt : ℕ → ℝ → String} {m : ℕ} {P : Printed}
    {gates : List EntryVal} (h : P.Describes n T fmt m gates) (hT : SamePhase T V) : P.Describes n V fmt m gates where
  length := h.length
  cost := by rw [h.cost, overlap_congr hT (SamePhase.refl _)]
  nonneg := h.nonneg
  le_one := h.le_one
  steps_pos := h.steps_pos
  steps_le := h.steps_le
  early := h.early
  short := h.short
  qasm := h.qasm

/-- The client of the notebook after the second cell. -/
def client (rng : Rng) : Client := ⟨⟨[], [], [0], rng⟩, [], []⟩

/-- The rest of the notebook. -/
noncomputable def rest (fmt : ℕ → ℝ → String) (sample : Arr) (m : ℤ) (compiler : Compiler) (target : Unitary) :
    PyM Client (Printed × Printed) := do
  let first ← report 0 fmt compiler m target
  let target ← PyM.lift (Unitary.random 0 (2 ^ 2) sample)
  let second ← report 0 fmt compiler m target
  return (first, second)

theorem notebook_start : ∃ xy ms target, ParamDefinitions.rotationXY 0 = .ok xy ∧ ParamDefinitions.xx 0 = .ok ms ∧
    target.Exact (2 ^ 2) ∧ target.matrix.toMatrix (2 ^ 2) = Gate.rot Gate.XX (2 * (Real.pi / 4)) ∧
    ∀ rng, Mirror (client rng) [defaultCompiler (2 ^ 2) [⟨.inr xy, none⟩, ⟨.inr ms, none⟩] 0] ⟨[], []⟩ ∧
      ∀ fmt sample m, notebook 0 fmt sample m (Client.start rng) =
        rest fmt sample m (defaultCompiler (2 ^ 2) [⟨.inr xy, none⟩, ⟨.inr ms, none⟩] 0) target (client rng) := by
  obtain ⟨⟨xy, hxy, -⟩, -, ⟨ms, hms, -⟩⟩ := C27_parameterized
  obtain ⟨target, ht, h1, h2, -⟩ := C27_xx (Real.pi / 4)
  refine ⟨xy, ms, target, hxy, hms, h2, h1.2.2, fun rng => ?_⟩
  have hv := native_valid (n := 2) le_rfl hxy hms
  have hnew := new_compiler_ok (D := 2 ^ 2) false none 0.5 0.1 (by positivity) (fun q hq => valid_dimension (hv q hq))
    (Client.start rng).world
  refine ⟨Mirror.newCompiler _ _ _ _ _ _ (Mirror.start rng) hnew, fun fmt sample m => ?_⟩
  unfold notebook rest
  have e1 : (do Primitive.new (.inr (← ParamDefinitions.rotationXY 0)) : Except PyErr Primitive) = .ok ⟨.inr xy, none⟩ := by
    rw [hxy]; rfl
  have e2 : (do Primitive.new (.inr (← ParamDefinitions.xx 0)) : Except PyErr Primitive) = .ok ⟨.inr ms, none⟩ := by
    rw [hms]; rfl
  have e3 : newCompiler (2 ^ 2) [⟨.inr xy, none⟩, ⟨.inr ms, none⟩] (Client.start rng) =
      (.ok (defaultCompiler (2 ^ 2) [⟨.inr xy, none⟩, ⟨.inr ms, none⟩] 0), client rng) := by
    unfold newCompiler PyM.zoom
    rw [hnew]; rfl
  rw [PyM.bind_of_ok (a := ⟨.inr xy, none⟩) (s' := Client.start rng) (by rw [e1]; rfl),
    PyM.bind_of_ok (a := ⟨.inr ms, none⟩) (s' := Client.start rng) (by rw [e2]; rfl), PyM.bind_of_ok e3,
    PyM.bind_of_ok (a := target) (s' := client rng) (by rw [ht]; rfl)]

theorem good_default {xy ms : ParamUnitary} (hxy : ParamDefinitions.rotationXY 0 = .ok xy)
    (hms : ParamDefinitions.xx 0 = .ok ms) {target : Unitary} (ht : target.Exact (2 ^ 2)) :
    Good 2 (defaultCompiler (2 ^ 2) [⟨.inr xy, none⟩, ⟨.inr ms, none⟩] 0) target where
  dim := rfl
  valid := native_valid le_rfl hxy hms
  truthy := ⟨by simp [defaultCompiler], by simp [defaultCompiler]⟩
  choice := by simp [ChoiceOk, Compiler.usable, defaultCompiler]
  append := by norm_num [defaultCompiler]
  rate := by norm_num [defaultCompiler]
  exact := ht

theorem native_universal_default {n : ℕ} (hn : 2 ≤ n) {xy ms : ParamUnitary}
    (hxy : ParamDefinitions.rotationXY 0 = .ok xy) (hms : ParamDefinitions.xx 0 = .ok ms) :
    Universal n (CanDraw n [⟨.inr xy, none⟩, ⟨.inr ms, none⟩] none) := by
  have hpl : placeable ([⟨.inr xy, none⟩, ⟨.inr ms, none⟩] : List Primitive) = [⟨.inr xy, none⟩, ⟨.inr ms, none⟩] := by
    simp [placeable]
  have hsel : ∀ (i : ℕ) (q : Primitive), ([⟨.inr xy, none⟩, ⟨.inr ms, none⟩] : List Primitive)[i]? = some q →
      Selectable [⟨.inr xy, none⟩, ⟨.inr ms, none⟩] none q := fun i q hi => ⟨i, by rw [hpl]; exact hi, by simp⟩
  exact C77_native_universal hxy hms (native_valid hn hxy hms)
    (fun i hi => ⟨_, hsel 0 _ rfl, rfl, acts_default (by simp) (by simpa using hi)⟩)
    (connected_all fun i hi j hj hij => ⟨_, hsel 1 _ rfl, rfl, acts_default (by simpa using hij) (by simp [hi, hj])⟩)

/-- The search for any target with the gates of the notebook. -/
theorem native_wins {xy ms : ParamUnitary} (hxy : ParamDefinitions.rotationXY 0 = .ok xy)
    (hms : ParamDefinitions.xx 0 = .ok ms) {B : ℕ} (hB : 2 ≤ B) :
    ∃ (δ : ℝ) (K : ℕ), 0 < δ ∧ δ ≤ 1 ∧ 0 < K ∧ ∀ T ∈ unitaryGroup (Fin (2 ^ 2)) ℂ, ∀ (m : ℕ) (b : ℝ), 0 ≤ b →
      Metropolis.Wins B 2 T none 0.1 (((2 : ℝ) ^ 2 ^ 2) ^ 2)
        ((defaultCompiler (2 ^ 2) [⟨.inr xy, none⟩, ⟨.inr ms, none⟩] 0).proposal 0) m ⟨[], b⟩ (1 - (1 - δ) ^ (m / K)) := by
  have hv := native_valid (n := 2) le_rfl hxy hms
  have hch : ChoiceOk [⟨.inr xy, none⟩, ⟨.inr ms, none⟩] none := by simp [ChoiceOk, Compiler.usable]
  obtain ⟨δ, K, h1, h2, h3, h4⟩ := Metropolis.wins_all (cap := ((2 : ℝ) ^ 2 ^ 2) ^ 2)
    (Metropolis.one_source hch hv (native_continuous hxy hms) hB hB (by
      intro q hq lists hl
      simp only [List.mem_cons, List.not_mem_nil, or_false] at hq
      rcases hq with rfl | rfl <;> cases hl)) (fun T hT ε hε => by
      obtain ⟨gates, g1, g2⟩ := native_universal_default le_rfl hxy hms T hT ε hε
      exact ⟨gates, ⟨gates.map fun v => [v], (flatten_singletons gates).symm, fun l hl => by
        obtain ⟨v, hv, rfl⟩ := List.mem_map.mp hl
        exact ((C77_can_draw hch (g1 v hv)).bind (k := fun v => Pure.pure [v]) (Rng.Possible.pure [v])).result⟩, g2⟩)
    (by positivity) (p := 0.5) (by norm_num) (by norm_num) (threshold := none) (allowed_pos (by simp))
  exact ⟨δ, K, h1, h2, h3, fun T hT m b hb => h4 T hT 0.1 (by norm_num) m ⟨[], b⟩ ⟨.nil, hb⟩⟩

end Example

end Stoq
