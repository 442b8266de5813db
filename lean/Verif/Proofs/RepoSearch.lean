import Verif.Proofs.RepoCompile
import Verif.Props.Continuous
import Verif.Props.SequenceMore
import Verif.Props.Entry

/-! # The tests that search for a sequence: preparation, and the walk that decides -/

namespace Stoq

open Matrix UnitaryDefinitions Tests MeasureTheory

namespace Tests

/-- The compiler that `Compiler(dimension, primitives)` makes as the `k`-th. -/
noncomputable def defaultCompiler (D : ℕ) (prims : List Primitive) (k : ℕ) : Compiler :=
  ⟨D, prims, false, none, ((2 : ℝ) ^ D) ^ 2, 0.1, 0.5, k⟩

/-- The client has made calls on sequences and compilers so far. -/
def Prepared (Cs : List Compiler) (p : Plain) (r : Rng) (c : Client) : Prop :=
  Mirror c Cs p ∧ c.world.rng = r ∧ c.world.betas = List.replicate Cs.length 0

variable {Cs : List Compiler} {p p' : Plain} {r : Rng}

theorem prepared_start (t : Rng.Tape) : Prepared [] ⟨[], []⟩ (Rng.start t) (Client.start (Rng.start t)) :=
  ⟨.start _, rfl, rfl⟩

theorem Prepared.perform {α : Type} {op : Op} {f : Client.Obs → Option α} {F : α → Prop}
    (hq : op.OnQubits) (hi : ∀ c, op.NoSharedInverse c) (hs : (p.step op).2 = p')
    (h : Does (Rel · p) (perform 0 op f) F (Rel · p')) :
    Does (Prepared Cs p r) (perform 0 op f) F (Prepared Cs p' r) := by
  rintro c ⟨h1, h2, h3⟩
  obtain ⟨a, c', e, ha, -⟩ := h c h1.rel.2
  have hc' : c' = (c.step 0 op).2 := by
    unfold Tests.perform at e
    rcases hx : c.step 0 op with ⟨_ | obs, c2⟩
    · rw [hx] at e; cases e
    · rw [hx] at e
      simp only at e
      rcases hf : f obs with _ | b
      · rw [hf] at e; cases e
      · rw [hf] at e; cases e; rfl
  have hfr := step_frame h1.rel.1.ok.1 op
  refine ⟨a, c', e, ha, ?_⟩
  subst hc'
  exact ⟨hs ▸ .op op h1 hq (hi c), hfr.rng.trans h2, hfr.betas.trans h3⟩

theorem newCompiler_does {D : ℕ} {prims : List Primitive} (hD : 0 < D) (hp : ∀ q ∈ prims, q.getDimension ≤ D) :
    Does (Prepared Cs p r) (newCompiler D prims) (fun C => C = defaultCompiler D prims Cs.length)
      (Prepared (Cs ++ [defaultCompiler D prims Cs.length]) p r) := by
  rintro c ⟨h1, h2, h3⟩
  have h := new_compiler_ok false none 0.5 0.1 hD hp c.world
  have hl : c.world.betas.length = Cs.length := by rw [h3, List.length_replicate]
  refine ⟨defaultCompiler D prims Cs.length, { c with world := { c.world with betas := c.world.betas ++ [0] } }, ?_, rfl, ?_⟩
  · unfold newCompiler PyM.zoom
    rw [h, hl]
    rfl
  · refine ⟨?_, h2, ?_⟩
    · rw [hl] at h
      exact .newCompiler D prims false none 0.5 0.1 h1 h
    · simp only [h3, List.length_append, List.length_singleton, List.replicate_succ']

/-- What the walk of the default compiler finds. -/
def Finds (n : ℕ) (prims : List Primitive) (T : Matrix (Fin (2 ^ n)) (Fin (2 ^ n)) ℂ) (threshold : Option ℝ) (m : ℤ)
    (r : Rng) (b : List EntryVal → Prop) : Prop :=
  ∃ tr r', Metropolis.run n T threshold 0.1 (((2 : ℝ) ^ 2 ^ n) ^ 2)
    ((defaultCompiler (2 ^ n) prims 0).proposal 0) m.toNat ⟨[], 0⟩ r = (.ok tr, r') ∧ b (tr.getLast?.getD ⟨[], 0⟩).gates

theorem follows_iff {n k : ℕ} {prims : List Primitive} {target : Unitary} {threshold : Option ℝ} {m : ℤ} {w : World}
    {out : Except PyErr CompilerResult × World} (h : FollowsWalk n (defaultCompiler (2 ^ n) prims k) target threshold m
      ((defaultCompiler (2 ^ n) prims k).proposal 0) 0 w out) (b : List EntryVal → Prop) :
    (∃ R v, out.1 = .ok R ∧ out.2.view R.sequence = some v ∧ v.dimension = 2 ^ n ∧ b v.entries) ↔
      Finds n prims (target.matrix.toMatrix (2 ^ n)) threshold m w.rng b := by
  unfold FollowsWalk at h
  change (match Metropolis.run n (target.matrix.toMatrix (2 ^ n)) threshold 0.1 (((2 : ℝ) ^ 2 ^ n) ^ 2)
    ((defaultCompiler (2 ^ n) prims 0).proposal 0) m.toNat ⟨[], 0⟩ w.rng with | (.error e, r) => _ | (.ok tr, r) => _) at h
  unfold Finds
  rcases hx : Metropolis.run n (target.matrix.toMatrix (2 ^ n)) threshold 0.1 (((2 : ℝ) ^ 2 ^ n) ^ 2)
    ((defaultCompiler (2 ^ n) prims 0).proposal 0) m.toNat ⟨[], 0⟩ w.rng with ⟨e | tr, r'⟩
  · rw [hx] at h
    simp only at h
    rw [h.1]
    simp
  · rw [hx] at h
    obtain ⟨-, R, hR, -, ⟨undo, hv⟩, -⟩ := h
    constructor
    · rintro ⟨R', v, h1, h2, -, h3⟩
      rw [hR] at h1; cases h1
      rw [hv] at h2; cases h2
      exact ⟨tr, r', rfl, h3⟩
    · rintro ⟨tr', r'', h1, h2⟩
      cases h1
      exact ⟨R, _, hR, hv, rfl, h2⟩

/-- The hypotheses on the primitives and the target of a compiler test. -/
structure Setup (n : ℕ) (prims : List Primitive) (target : Unitary) : Prop where
  valid : ∀ q ∈ prims, q.Valid n
  ne : prims ≠ []
  exact : target.Exact (2 ^ n)

theorem prepared_follows {n k : ℕ} {prims : List Primitive} {target : Unitary} (hS : Setup n prims target)
    {c : Client} (hc : Mirror c Cs p) (hk : k < Cs.length) (hC : defaultCompiler (2 ^ n) prims k ∈ Cs)
    (hb : c.world.betas = List.replicate Cs.length 0) (threshold : Option ℝ) (m : ℤ) :
    FollowsWalk n (defaultCompiler (2 ^ n) prims k) target threshold m
      ((defaultCompiler (2 ^ n) prims k).proposal 0) 0 c.world
      ((defaultCompiler (2 ^ n) prims k).compile 0 target threshold m c.world) := by
  refine C31_compile_is_walk hc.rel.1 hC hc.rel.2.exact rfl hS.valid ⟨hS.ne, by simp [defaultCompiler]⟩ hS.exact ?_ threshold m
  unfold World.annealing
  rw [hb]
  simp [defaultCompiler, hk]

/-- A test that ends with a compilation and assertions about its result. -/
theorem compile_decides {n k : ℕ} {prims : List Primitive} {target : Unitary} (hS : Setup n prims target)
    (hk : k < Cs.length) (hC : defaultCompiler (2 ^ n) prims k ∈ Cs) {threshold : Option ℝ} {m : ℤ}
    {g : ℕ → PyM Client Unit} {b : List EntryVal → Prop}
    (hg : ∀ v : SeqView, v.dimension = 2 ^ n →
      (∀ e ∈ v.entries, e.WF ∧ ∃ q ∈ prims, FromPrimitive 0 n q e) →
      Decides (Rel · { p with seqs := p.seqs ++ [v] }) (g p.seqs.length) (b v.entries)) :
    Decides (Prepared Cs p r) (returned 0 (.compile (defaultCompiler (2 ^ n) prims k) target threshold m) >>= g)
      (Finds n prims (target.matrix.toMatrix (2 ^ n)) threshold m r b) := by
  rintro c ⟨h1, h2, h3⟩
  have hf := prepared_follows hS h1 hk hC h3 threshold m
  rw [← h2, ← follows_iff hf, returned_decides h1 (T := .compile (defaultCompiler (2 ^ n) prims k) target threshold m) hC
    ⟨n, rfl, hS.valid, hS.exact⟩ (b := fun v => b v.entries) ?_]
  · constructor
    · rintro ⟨s, w, v, e, hv, hb⟩
      obtain ⟨R, w', e1, e2⟩ := PyM.bind_eq_ok_iff.mp e
      cases e2
      obtain ⟨v', hv', hd, -, -⟩ := C34_compile_provenance h1.rel.1 hC e1
      rw [hv] at hv'; cases hv'
      rw [e1]
      exact ⟨R, v, rfl, hv, hd, hb⟩
    · rintro ⟨R, v, e, hv, -, hb⟩
      refine ⟨R.sequence, _, v, ?_, hv, hb⟩
      have : (defaultCompiler (2 ^ n) prims k).compile 0 target threshold m c.world =
        (.ok R, ((defaultCompiler (2 ^ n) prims k).compile 0 target threshold m c.world).2) := by rw [← e]
      exact PyM.bind_eq_ok_iff.mpr ⟨R, _, this, rfl⟩
  · intro s w v e hv
    obtain ⟨R, w', e1, e2⟩ := PyM.bind_eq_ok_iff.mp e
    cases e2
    obtain ⟨v', hv', hd, -, hp⟩ := C34_compile_provenance h1.rel.1 hC e1
    rw [hv] at hv'; cases hv'
    refine hg v hd ?_
    have : intLog2 (defaultCompiler (2 ^ n) prims k).dimension = n := log2_pow n
    rw [this] at hp
    exact hp

theorem Decides.of_prepared {m : PyM Client Unit} {b : Rng → Prop}
    (h : ∀ r, Decides (Prepared [] ⟨[], []⟩ r) m (b r)) (t : Rng.Tape) :
    (m (Client.start (Rng.start t))).1 = .ok () ↔ b (Rng.start t) := h _ _ (prepared_start t)

/-! ## The probability of finding -/

theorem finds_likely {n : ℕ} {prims : List Primitive} {T : Matrix (Fin (2 ^ n)) (Fin (2 ^ n)) ℂ} (hvalid : ∀ q ∈ prims, q.Valid n)
    (hT : T ∈ unitaryGroup (Fin (2 ^ n)) ℂ)
    (hcont : ∀ q ∈ prims, q.Continuous) (hch : ChoiceOk prims none) {threshold : Option ℝ} {w : List EntryVal}
    (hw : ∀ v ∈ w, CanDraw n prims none v)
    (hgood : 1 - overlap T (circuit n w) < Metropolis.allowed threshold) {B : ℕ}
    (hB : n ≤ B) (hB1 : prims.length ≤ B)
    (hB2 : ∀ q ∈ prims, ∀ lists, q.allowedApplyTo = some lists → lists.length ≤ B) :
    ∃ (δ : ℝ) (K : ℕ), 0 < δ ∧ δ ≤ 1 ∧ 0 < K ∧ ∀ m : ℕ,
      1 - ENNReal.ofReal ((1 - δ) ^ (m / K)) ≤ Rng.tapes B {t | Finds n prims T threshold m (Rng.start t)
        fun gates => Metropolis.GoodEnough threshold (1 - overlap T (circuit n gates))} := by
  obtain ⟨δ, K, h1, h2, h3, h4⟩ := Metropolis.wins_exponential (cap := ((2 : ℝ) ^ 2 ^ n) ^ 2) hT
    (Metropolis.one_source hch hvalid hcont hB hB1 hB2) (by positivity) (p := 0.5) (by norm_num) (by norm_num) (w := w)
    ⟨w.map fun v => [v], (flatten_singletons w).symm, fun l hl => by
      obtain ⟨v, hv, rfl⟩ := List.mem_map.mp hl
      exact ((C77_can_draw hch (hw v hv)).bind (k := fun v => Pure.pure [v]) (Rng.Possible.pure [v])).result⟩ hgood
  refine ⟨δ, K, h1, h2, h3, fun m => ?_⟩
  have hw := h4 0.1 (by norm_num) m ⟨[], 0⟩ ⟨.nil, by norm_num⟩
  rw [← ENNReal.ofReal_one, ← ENNReal.ofReal_sub _ (pow_nonneg (by linarith) _)]
  refine hw.prob.trans (measure_mono fun t ht => ?_)
  obtain ⟨tr, r', hrun, hgood⟩ := ht (Rng.start t) (Rng.rest_start t)
  refine ⟨tr, r', hrun, ?_⟩
  have hg : (tr.getLast?.getD ⟨[], 0⟩).gates = (tr.map Metropolis.State.gates).getLast?.getD [] := by
    rw [List.getLast?_map]
    cases tr.getLast? <;> rfl
  rw [hg]
  exact hgood

/-! ## The probability of not finding -/

theorem step_stuck {n : ℕ} {T : Matrix (Fin (2 ^ n)) (Fin (2 ^ n)) ℂ} {rate cap b : ℝ} {fresh : PyM Rng (List EntryVal)}
    {L : ℕ} {r : Rng} (h : (1 / 2 : ℝ) ≤ r.unif r.upos) :
    Metropolis.step n T rate cap (Metropolis.propose 0.5 fresh L) ⟨[], b⟩ r =
      (.ok ⟨[], min (b + rate) cap⟩, { r with upos := r.upos + 2 }) := by
  have hp : Metropolis.propose 0.5 fresh L [] r = (.ok [], { r with upos := r.upos + 1 }) := by
    unfold Metropolis.propose
    rw [raiseUnless_of (by norm_num), PyM.bind_of_ok (show PyM.lift (.ok ()) r = (.ok (), r) from rfl),
      PyM.bind_of_ok (show Rng.randomSample r = (.ok (r.unif r.upos : ℝ), { r with upos := r.upos + 1 }) from rfl),
      if_neg (by norm_num; linarith), if_neg (by norm_num; linarith)]
    split_ifs
    · rw [List.drop_nil]; rfl
    · rw [List.take_nil]; rfl
  unfold Metropolis.step
  rw [PyM.bind_of_ok hp, PyM.bind_of_ok (show Rng.randomSample { r with upos := r.upos + 1 } =
    (.ok (r.unif (r.upos + 1) : ℝ), { r with upos := r.upos + 2 }) from rfl), if_pos]
  · rfl
  · simpa using (r.unif (r.upos + 1)).2.2

theorem run_stuck {n : ℕ} {T : Matrix (Fin (2 ^ n)) (Fin (2 ^ n)) ℂ} {threshold : Option ℝ} {rate cap : ℝ}
    {fresh : PyM Rng (List EntryVal)} {L : ℕ} (k : ℕ) (b : ℝ) (r : Rng)
    (h : ∀ i < k, (1 / 2 : ℝ) ≤ r.unif (r.upos + 2 * i)) :
    ∃ tr r', Metropolis.run n T threshold rate cap (Metropolis.propose 0.5 fresh L) k ⟨[], b⟩ r = (.ok tr, r') ∧
      ∀ st ∈ tr, st.gates = [] := by
  induction k generalizing b r with
  | zero => exact ⟨[], r, rfl, by simp⟩
  | succ k ih =>
    unfold Metropolis.run
    split_ifs with hg
    · exact ⟨[], r, rfl, by simp⟩
    · obtain ⟨tr, r', e, htr⟩ := ih (min (b + rate) cap) { r with upos := r.upos + 2 } fun i hi => by
        have := h (i + 1) (by omega)
        rwa [show r.upos + 2 * (i + 1) = r.upos + 2 + 2 * i by ring] at this
      refine ⟨⟨[], min (b + rate) cap⟩ :: tr, r', ?_, ?_⟩
      · rw [PyM.bind_of_ok (step_stuck (h 0 (by omega))), PyM.bind_of_ok e]
        rfl
      · intro st hst
        rcases List.mem_cons.mp hst with rfl | hst
        · rfl
        · exact htr st hst

theorem finds_stuck {n : ℕ} {prims : List Primitive} {T : Matrix (Fin (2 ^ n)) (Fin (2 ^ n)) ℂ} {threshold : Option ℝ} {m : ℕ} {t : Rng.Tape}
    {b : List EntryVal → Prop} (h : ∀ i < m, (1 / 2 : ℝ) ≤ t.1 (2 * i)) :
    Finds n prims T threshold m (Rng.start t) b ↔ b [] := by
  obtain ⟨tr, r', e, htr⟩ := run_stuck (n := n) (T := T) (threshold := threshold) (rate := 0.1)
    (cap := ((2 : ℝ) ^ 2 ^ n) ^ 2) (fresh := Metropolis.one (Compiler.createRandomEntryVal 0 (2 ^ n) prims none)) (L := 1)
    m 0 (Rng.start t) (by simpa [Rng.start] using h)
  have hl : (tr.getLast?.getD ⟨[], 0⟩).gates = [] := by
    rcases hx : tr.getLast? with _ | st
    · rfl
    · exact htr st (List.mem_of_getLast? hx)
  constructor
  · rintro ⟨tr', r'', e', hb⟩
    rw [show Metropolis.run n T threshold 0.1 (((2 : ℝ) ^ 2 ^ n) ^ 2)
      ((defaultCompiler (2 ^ n) prims 0).proposal 0) (m : ℤ).toNat ⟨[], 0⟩ (Rng.start t) = (.ok tr, r') from e] at e'
    cases e'
    rwa [hl] at hb
  · intro hb
    exact ⟨tr, r', e, by rwa [hl]⟩

/-- Half of the time the first proposal is a removal, and so on. -/
theorem stuck_measure (B m : ℕ) :
    Rng.tapes B {t | ∀ i < m, (1 / 2 : ℝ) ≤ t.1 (2 * i)} = ENNReal.ofReal ((1 / 2) ^ m) := by
  have hA := measurableSet_interval (1 / 2) 1
  set A : Set (Set.Ico (0 : ℝ) 1) := {u | (1 / 2 : ℝ) ≤ u ∧ (u : ℝ) < 1} with hAdef
  have hset : {t : Rng.Tape | ∀ i < m, (1 / 2 : ℝ) ≤ t.1 (2 * i)} =
      (Set.pi ((Finset.range m).image (2 * ·) : Finset ℕ) fun _ => A) ×ˢ Set.univ := by
    ext t
    simp only [Set.mem_ofPred_eq, Set.mem_prod, Set.mem_univ, and_true, Set.mem_pi, Finset.coe_image, Set.mem_image,
      Finset.coe_range, Set.mem_Iio]
    constructor
    · rintro h _ ⟨i, hi, rfl⟩
      exact ⟨h i hi, (t.1 (2 * i)).2.2⟩
    · intro h i hi
      exact (h _ ⟨i, hi, rfl⟩).1
  rw [hset]
  unfold Rng.tapes
  rw [Measure.prod_prod, measure_univ, mul_one]
  unfold uniformTape
  rw [Measure.infinitePi_pi _ (fun _ _ => hA), Finset.prod_const, Finset.card_image_of_injective _ (by intro a b h; simpa using h),
    Finset.card_range, ← ofReal_measureReal, uniformUnit_interval (by norm_num) (by norm_num) le_rfl,
    ← ENNReal.ofReal_pow (by norm_num)]
  norm_num

theorem finds_unlikely {n : ℕ} {prims : List Primitive} {T : Matrix (Fin (2 ^ n)) (Fin (2 ^ n)) ℂ} {threshold : Option ℝ}
    {b : List EntryVal → Prop} (hb : ¬ b []) (B m : ℕ) :
    ENNReal.ofReal ((1 / 2) ^ m) ≤ Rng.tapes B {t | ¬ Finds n prims T threshold m (Rng.start t) b} := by
  rw [← stuck_measure B m]
  exact measure_mono fun t ht => fun h => hb ((finds_stuck ht).mp h)

end Tests

end Stoq
