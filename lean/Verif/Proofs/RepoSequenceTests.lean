import Verif.Proofs.RepoSequence
import Verif.Proofs.Text

/-! # The tests of sequences pass -/

namespace Stoq

open Matrix UnitaryDefinitions Tests

open scoped Matrix.Norms.L2Operator

namespace Tests

variable {n k : ℕ} {τ : Arith} {ε : ℝ} {p p' : Plain}

/-! ## Gates on one qubit -/

/-- The ideal gate on qubit 0. -/
abbrev on0 (v : Unitary) : EntryVal := ⟨v, [0]⟩

/-- An exact object that stores the gate. -/
structure Ideal (v : Unitary) (V : Matrix (Fin 2) (Fin 2) ℂ) : Prop where
  exact : v.Exact 2
  phase : SamePhase (v.matrix.toMatrix 2) V
  mem : V ∈ unitaryGroup (Fin 2) ℂ

theorem ideal {V : Matrix (Fin 2) (Fin 2) ℂ} (hV : V ∈ unitaryGroup (Fin 2) ℂ) : ∃ v, Ideal v V := by
  have ha : (Arr.ofMatrix V).Is V := by
    refine ⟨rfl, rfl, ?_⟩
    ext i j
    simp only [Arr.toMatrix, Arr.ofMatrix, i.isLt, j.isLt, and_self, dite_true, Fin.eta]
  obtain ⟨v, -, h1, h2, -⟩ := C01_construct_ok (by norm_num : 0 < 2) ha hV none none false []
  exact ⟨v, h1, h2, hV⟩

theorem op_one (v : Unitary) : (on0 v).op 1 = v.matrix.toMatrix 2 := by
  ext i j
  unfold EntryVal.op embed
  fin_cases i <;> fin_cases j <;> simp [AgreeOff, gather, qubit]

theorem Ideal.new {v : Unitary} {V : Matrix (Fin 2) (Fin 2) ℂ} (h : Ideal v V) : EntryVal.new v [0] = .ok (on0 v) := by
  unfold EntryVal.new
  rw [assertE_of (by simp), ok_bind, h.exact.dim]
  simp only [List.length_cons, List.length_nil]
  rw [raiseUnless_of (by simp), ok_bind, assertE_of (by norm_num), ok_bind, assertE_of (by simp), ok_bind]
  rfl

theorem Ideal.fits (v : Unitary) : Plain.fits 2 (on0 v) := by simp [Plain.fits]

theorem Ideal.cons {v : Unitary} {V W : Matrix (Fin 2) (Fin 2) ℂ} (h : Ideal v V) {es : List EntryVal}
    (h' : SamePhase (circuit 1 es) W) : SamePhase (circuit 1 (on0 v :: es)) (W * V) := by
  unfold circuit
  rw [op_one]
  exact h'.mul h.phase

theorem circuit_nil : SamePhase (circuit 1 []) 1 := SamePhase.refl _

theorem budget1 (hτ : Fine τ) (hk : k ≤ 14) : Budget 1 τ 1.25e-12 1e-10 k ∧ driftErr 1 1.25e-12 1e-10 k ≤ (19 : ℕ) * 1e-10 := by
  have h : driftErr 1 1.25e-12 1e-10 14 ≤ (19 : ℕ) * 1e-10 := by unfold driftErr stepErr; norm_num
  have hb : Budget 1 τ 1.25e-12 1e-10 14 := ⟨hτ.mono (by norm_num), by norm_num, by norm_num, h.trans (by unfold driftLimit; norm_num)⟩
  exact ⟨hb.mono hk, (driftErr_mono hb.t0 hb.eps hk).trans h⟩

/-- Shorthand for the states of these tests. -/
abbrev At1 (τ : Arith) (k : ℕ) (es : List EntryVal) (ss : List SeqView) : Client → Prop := At 1 τ 1e-10 k ⟨es, ss⟩

theorem gate_does {es : List EntryVal} {ss : List SeqView} {r : Except PyErr Unitary} {u v : Unitary}
    {V : Matrix (Fin 2) (Fin 2) ℂ} (hτ : Fine τ) (hk : k ≤ 14) (hv : Ideal v V) (hr : r = .ok u) (hu : Rep u V 1) :
    Does (At1 τ k es ss) (newEntry τ r [0]) (fun i => i = es.length) (At1 τ k (es ++ [on0 v]) ss) :=
  newEntry_does hr hv.exact (by
    have := (hu.phase hv.phase.symm hv.exact.unitary).near
    simpa using this) hv.new (budget1 hτ hk).1

theorem assertProduct1_does {es : List EntryVal} {ss : List SeqView} {s : ℕ} {v : SeqView} {r : Except PyErr Unitary} {u : Unitary}
    {V W : Matrix (Fin 2) (Fin 2) ℂ} (hτ : Fine τ) (hk : k ≤ 14) (hs : ss[s]? = some v) (hd : v.dimension = 2)
    (hV : SamePhase (circuit 1 v.entries) V) (hr : r = .ok u) {l : ℕ} (hu : Rep u W l) (hl : l ≤ 40) (hVW : SamePhase V W) :
    Does (At1 τ k es ss) (assertProduct τ s r) (fun _ => True) (At1 τ k es ss) :=
  assertProduct_does (m := 1) (W := W) hτ hs hd (by norm_num) (budget1 hτ hk).1 (budget1 hτ hk).2 (by norm_num) hV hr hu hl hVW

theorem Does.pass {m : PyM Client Unit} {P Q : Client → Prop} (h : Does P m (fun _ => True) Q) {c : Client} (hc : P c) :
    (m c).1 = .ok () := by
  obtain ⟨_, c', e, -⟩ := h c hc
  rw [e]

theorem start1 (rng : Rng) : At1 τ 0 [] [] (Client.start rng) := relNear_start rng

theorem seqDim_does {s : ℕ} {v : SeqView} (hs : p.seqs[s]? = some v) :
    Does (At n τ ε k p) (seqAttr (fun o => o.dimension) s) (fun d => d = v.dimension) (At n τ ε k p) := by
  intro c hc
  rcases forall₂_getElem? hc.seqs s with ⟨-, h2⟩ | ⟨r, v', h1, h2, o, m, ho, hv⟩
  · rw [hs] at h2; cases h2
  · rw [hs] at h2; cases h2
    exact ⟨o.dimension, c, by simp [seqAttr, h1, ho], hv.ok.dim.trans hv.dim.symm, hc⟩

theorem assertDim_does {s D : ℕ} {v : SeqView} (hs : p.seqs[s]? = some v) (hd : v.dimension = D) :
    Does (At n τ ε k p) (do PyM.assert ((← seqAttr (fun o => o.dimension) s) = D)) (fun _ => True) (At n τ ε k p) := by
  refine Does.bind (seqDim_does hs) ?_
  rintro _ rfl
  exact Does.assert hd

theorem pass_sequenceDefault (hτ : Fine τ) (rng : Rng) : (sequenceDefault τ (Client.start rng)).1 = .ok () := by
  refine Does.pass (P := At1 τ 0 [] []) (Q := At1 τ 0 [] [⟨2, false, [], none⟩]) ?_ (start1 rng)
  unfold sequenceDefault
  refine Does.bind (newSeq_does (m := 1) (vs := []) le_rfl rfl rfl (by simp) rfl (budget1 hτ (by norm_num)).1) ?_
  intro s hs
  obtain rfl : s = 0 := hs
  refine Does.bind (seqDim_does rfl) ?_
  rintro _ rfl
  refine Does.bind (Does.assert rfl) fun _ _ => ?_
  refine Does.bind (product_does (m := 1) rfl rfl (budget1 hτ (by norm_num)).1) fun q hq => ?_
  have := rep_of_near hq (budget1 hτ (by norm_num)).2 (by norm_num) (by norm_num) circuit_nil (one_mem _)
  refine Does.lift (a := ()) ?_ trivial
  rw [show Arr.identity 2 = Arr.identity (2 ^ 1) from rfl, this.closeArr hτ (by norm_num) (SamePhase.refl _), assertIs_ok]

/-! ## T gates -/

theorem tLiteral_gives (hτ : Fine τ) : ∃ u, tLiteral τ = .ok u ∧ Rep u Gate.T 1 := by
  have ha : (Arr.ofRows [[1, 0], [0, Complex.exp (Complex.I * Real.pi / 4)]]).Is Gate.T := by
    refine ⟨rfl, rfl, ?_⟩
    have h : Complex.I * Real.pi / 4 = Real.pi / 4 * Complex.I := by ring
    ext i j
    fin_cases i <;> fin_cases j <;> simp [Arr.toMatrix, Arr.ofRows, Gate.T, h]
  obtain ⟨u, e, hu, -⟩ := gate_gives hτ (by norm_num) (by norm_num) ha T_mem "test" (args := []) (by simp) none none
  exact ⟨u, e, hu⟩

theorem Ideal.replicate {v : Unitary} {V : Matrix (Fin 2) (Fin 2) ℂ} (h : Ideal v V) (k : ℕ) :
    SamePhase (circuit 1 (List.replicate k (on0 v))) (V ^ k) := by
  induction k with
  | zero => exact circuit_nil
  | succ k ih =>
    have := h.cons ih
    rwa [← pow_succ] at this

theorem getAll_replicate {α : Type} {l : List α} {i : ℕ} {a : α} (h : l[i]? = some a) (k : ℕ) :
    getAll l (List.replicate k i) = some (List.replicate k a) := by
  induction k with
  | zero => rfl
  | succ k ih => rw [List.replicate_succ, List.replicate_succ, getAll, h, ih]

theorem T_pow (k : ℕ) : Gate.T ^ k = !![1, 0; 0, Complex.exp (k * (Real.pi / 4 * Complex.I))] := by
  have : Gate.T = Matrix.diagonal ![1, Complex.exp (Real.pi / 4 * Complex.I)] := by
    ext i j; fin_cases i <;> fin_cases j <;> simp [Gate.T]
  rw [this, Matrix.diagonal_pow]
  ext i j
  fin_cases i <;> fin_cases j <;> simp [← Complex.exp_nat_mul]

theorem pass_identityRoots (hτ : Fine τ) (rng : Rng) {k : ℕ} (hk : k ≤ 14) (b : Bool)
    (hT : if b then SamePhase (Gate.T ^ k) 1 else overlap (Gate.T ^ k) 1 ≤ 0.999) :
    (identityRoots τ k b (Client.start rng)).1 = .ok () := by
  obtain ⟨v, hv⟩ := ideal T_mem
  obtain ⟨u, e, hu⟩ := tLiteral_gives hτ
  refine Does.pass (P := At1 τ 0 [] []) (Q := At1 τ k [on0 v] [⟨2, true, List.replicate k (on0 v), none⟩]) ?_ (start1 rng)
  unfold identityRoots
  refine Does.bind (gate_does hτ (by norm_num) hv e hu) ?_
  intro i hi
  obtain rfl : i = 0 := hi
  refine Does.bind (newSeq_does (m := 1) (k' := k) le_rfl rfl (getAll_replicate rfl k)
    (fun x hx => by rw [List.eq_of_mem_replicate hx]; exact Ideal.fits v) (by simp) (budget1 hτ hk).1) ?_
  intro s hs
  obtain rfl : s = 0 := hs
  refine Does.bind (seqDim_does rfl) ?_
  rintro _ rfl
  refine Does.bind (Does.assert rfl) fun _ _ => ?_
  refine Does.bind (assertLength_does rfl (by simp) (budget1 hτ hk).1) fun _ _ => ?_
  refine Does.bind (product_does (m := 1) rfl rfl (budget1 hτ hk).1) fun q hq => ?_
  have := rep_of_near hq (budget1 hτ hk).2 (by norm_num) (by norm_num) (hv.replicate k) (pow_mem T_mem k)
  refine Does.lift (a := ()) ?_ trivial
  rw [show Arr.identity 2 = Arr.identity (2 ^ 1) from rfl]
  cases b with
  | true => rw [this.closeArr hτ (by norm_num) (by simpa using hT), assertIs_ok]
  | false => rw [this.farArr hτ (by norm_num) (by simpa using hT), assertIs_ok]

theorem pass_identityRoots_correct (hτ : Fine τ) (rng : Rng) : (identityRoots τ 8 true (Client.start rng)).1 = .ok () := by
  refine pass_identityRoots hτ rng (by norm_num) true ?_
  rw [if_pos rfl, T_pow]
  refine same_of_eq ?_
  rw [show ((8 : ℕ) : ℂ) * (Real.pi / 4 * Complex.I) = 2 * Real.pi * Complex.I by push_cast; ring, Complex.exp_two_pi_mul_I]
  exact Matrix.one_fin_two.symm

theorem pass_identityRoots_incorrect (hτ : Fine τ) (rng : Rng) :
    (identityRoots τ 7 false (Client.start rng)).1 = .ok () := by
  refine pass_identityRoots hτ rng (by norm_num) false ?_
  rw [if_neg (by simp), T_pow, overlap_comm]
  have he : Complex.exp (((7 : ℕ) : ℂ) * (Real.pi / 4 * Complex.I)) = ⟨Real.sqrt 2 / 2, -(Real.sqrt 2 / 2)⟩ := by
    rw [show ((7 : ℕ) : ℂ) * (Real.pi / 4 * Complex.I) = ((-(Real.pi / 4) : ℝ) : ℂ) * Complex.I + 2 * Real.pi * Complex.I by
      push_cast; ring, Complex.exp_add, Complex.exp_two_pi_mul_I, mul_one, Complex.exp_mul_I,
      ← Complex.ofReal_cos, ← Complex.ofReal_sin, Real.cos_neg, Real.sin_neg, Real.cos_pi_div_four, Real.sin_pi_div_four]
    apply Complex.ext <;> simp
  have h : Complex.normSq (1 + Complex.exp (((7 : ℕ) : ℂ) * (Real.pi / 4 * Complex.I))) = 2 + Real.sqrt 2 := by
    rw [he]
    simp [Complex.normSq_apply]
    nlinarith [Real.sq_sqrt (show (0 : ℝ) ≤ 2 by norm_num)]
  have h2 : ‖(1 : ℂ) + Complex.exp (((7 : ℕ) : ℂ) * (Real.pi / 4 * Complex.I))‖ ^ 2 = 2 + Real.sqrt 2 := by
    rw [← h, Complex.normSq_eq_norm_sq]
  have h3 : Real.sqrt 2 < 1.5 := by rw [Real.sqrt_lt' (by norm_num)]; norm_num
  generalize Complex.exp (((7 : ℕ) : ℂ) * (Real.pi / 4 * Complex.I)) = z at h2
  have h4 : ‖(1 : ℂ) + z‖ < 1.9 := by
    by_contra hc
    push Not at hc
    nlinarith
  simp only [overlap, conjTranspose_one, one_mul, trace_fin_two_of]
  norm_num at *
  linarith

/-! ## Appending and removing -/

theorem Does.last {α : Type} {P Q : Client → Prop} {m : PyM Client α} {F : α → Prop} (h : Does P m F Q) :
    Does P m F (fun _ => True) := h.mono (fun _ h => h) (fun _ h => h) (fun _ _ => trivial)

theorem YX : SamePhase (1 * Gate.Y * Gate.X) Gate.Z := by
  refine ⟨-Complex.I, by simp, ?_⟩
  ext i j
  fin_cases i <;> fin_cases j <;> simp [Gate.X, Gate.Y, Gate.Z]

theorem XZ : SamePhase (1 * Gate.X * Gate.Z) Gate.Y := by
  refine ⟨-Complex.I, by simp, ?_⟩
  ext i j
  fin_cases i <;> fin_cases j <;> simp [Gate.X, Gate.Y, Gate.Z]

theorem YXZ : SamePhase (1 * Gate.Y * Gate.X * Gate.Z) 1 := by
  refine ⟨-Complex.I, by simp, ?_⟩
  ext i j
  fin_cases i <;> fin_cases j <;> simp [Gate.X, Gate.Y, Gate.Z]

theorem YY : SamePhase (1 * Gate.Y * Gate.Y) 1 := by
  refine same_of_eq ?_
  ext i j
  fin_cases i <;> fin_cases j <;> simp [Gate.Y]

theorem one_same (M : Matrix (Fin 2) (Fin 2) ℂ) : SamePhase (1 * M) M := same_of_eq (one_mul M)

theorem pass_appendAndRemove (hτ : Fine τ) (rng : Rng) : (appendAndRemove τ (Client.start rng)).1 = .ok () := by
  obtain ⟨i, ei, hi⟩ := identity_gives hτ (by norm_num : 0 < 2) (by norm_num)
  obtain ⟨⟨x, ex, hx, -⟩, ⟨y, ey, hy, -⟩, ⟨z, ez, hz, -⟩, -⟩ := paulis_give hτ
  obtain ⟨vx, ix⟩ := ideal X_mem
  obtain ⟨vy, iy⟩ := ideal Y_mem
  obtain ⟨vz, iz⟩ := ideal Z_mem
  have hb : ∀ k ≤ 14, Budget 1 τ 1.25e-12 1e-10 k := fun k hk => (budget1 hτ hk).1
  refine Does.pass (P := At1 τ 0 [] []) (Q := fun _ => True) ?_ (start1 rng)
  unfold appendAndRemove
  refine Does.bind (Does.lift (F := fun a => a = i) ei rfl) ?_
  rintro _ rfl
  refine Does.bind (newSeq_does (m := 1) (vs := []) le_rfl rfl rfl (by simp) rfl (hb _ (by norm_num))) ?_
  intro s hs
  obtain rfl : s = 0 := hs
  refine Does.bind (assertLength_does rfl rfl (hb _ (by norm_num))) fun _ _ => ?_
  refine Does.bind (assertProduct1_does hτ (by norm_num) rfl rfl circuit_nil rfl hi (by norm_num) (SamePhase.refl _)) fun _ _ => ?_
  refine Does.bind (gate_does hτ (by norm_num) ix ex hx) ?_
  rintro _ rfl
  refine Does.bind (appendFirst_does rfl rfl (Ideal.fits vx) rfl (hb _ (by norm_num))) fun _ _ => ?_
  refine Does.bind (assertLength_does rfl rfl (hb _ (by norm_num))) fun _ _ => ?_
  refine Does.bind (assertProduct1_does hτ (by norm_num) rfl rfl (ix.cons circuit_nil) ex hx (by norm_num) (one_same _)) fun _ _ => ?_
  refine Does.bind (gate_does hτ (by norm_num) iy ey hy) ?_
  rintro _ rfl
  refine Does.bind (appendLast_does rfl rfl (Ideal.fits vy) rfl (hb _ (by norm_num))) fun _ _ => ?_
  refine Does.bind (assertLength_does rfl rfl (hb _ (by norm_num))) fun _ _ => ?_
  refine Does.bind (assertProduct1_does hτ (by norm_num) rfl rfl (ix.cons (iy.cons circuit_nil)) ez hz (by norm_num) YX) fun _ _ => ?_
  refine Does.bind (gate_does hτ (by norm_num) iz ez hz) ?_
  rintro _ rfl
  refine Does.bind (appendFirst_does rfl rfl (Ideal.fits vz) rfl (hb _ (by norm_num))) fun _ _ => ?_
  refine Does.bind (assertLength_does rfl rfl (hb _ (by norm_num))) fun _ _ => ?_
  refine Does.bind (assertProduct1_does hτ (by norm_num) rfl rfl (iz.cons (ix.cons (iy.cons circuit_nil))) rfl hi (by norm_num) YXZ)
    fun _ _ => ?_
  refine Does.bind (removeLast_does rfl (by simp) rfl (hb _ (by norm_num))) fun _ _ => ?_
  refine Does.bind (assertLength_does rfl rfl (hb _ (by norm_num))) fun _ _ => ?_
  refine Does.bind (assertProduct1_does hτ (by norm_num) rfl rfl (iz.cons (ix.cons circuit_nil)) ey hy (by norm_num) XZ) fun _ _ => ?_
  refine Does.bind (removeFirst_does rfl (by simp) rfl (hb _ (by norm_num))) fun _ _ => ?_
  refine Does.bind (assertLength_does rfl rfl (hb _ (by norm_num))) fun _ _ => ?_
  refine Does.bind (assertProduct1_does hτ (by norm_num) rfl rfl (ix.cons circuit_nil) ex hx (by norm_num) (one_same _)) fun _ _ => ?_
  refine Does.bind (removeFirst_does rfl (by simp) rfl (hb _ (by norm_num))) fun _ _ => ?_
  refine Does.bind (assertLength_does rfl rfl (hb _ (by norm_num))) fun _ _ => ?_
  exact (assertProduct1_does hτ (by norm_num) rfl rfl circuit_nil rfl hi (by norm_num) (SamePhase.refl _)).last

theorem pass_undo (hτ : Fine τ) (rng : Rng) : (undo τ (Client.start rng)).1 = .ok () := by
  obtain ⟨i, ei, hi⟩ := identity_gives hτ (by norm_num : 0 < 2) (by norm_num)
  obtain ⟨⟨x, ex, hx, -⟩, ⟨y, ey, hy, -⟩, -⟩ := paulis_give hτ
  obtain ⟨vx, ix⟩ := ideal X_mem
  obtain ⟨vy, iy⟩ := ideal Y_mem
  have hb : ∀ k ≤ 14, Budget 1 τ 1.25e-12 1e-10 k := fun k hk => (budget1 hτ hk).1
  refine Does.pass (P := At1 τ 0 [] []) (Q := fun _ => True) ?_ (start1 rng)
  unfold undo
  refine Does.bind (Does.lift (F := fun a => a = i) ei rfl) ?_
  rintro _ rfl
  refine Does.bind (newSeq_does (m := 1) (vs := []) le_rfl rfl rfl (by simp) rfl (hb _ (by norm_num))) ?_
  intro s hs
  obtain rfl : s = 0 := hs
  refine Does.bind (assertLength_does rfl rfl (hb _ (by norm_num))) fun _ _ => ?_
  refine Does.bind (undo_raises rfl rfl (hb _ (by norm_num))) fun _ _ => ?_
  refine Does.bind (gate_does hτ (by norm_num) ix ex hx) ?_
  rintro _ rfl
  refine Does.bind (appendFirst_does rfl rfl (Ideal.fits vx) rfl (hb _ (by norm_num))) fun _ _ => ?_
  refine Does.bind (assertLength_does rfl rfl (hb _ (by norm_num))) fun _ _ => ?_
  refine Does.bind (assertProduct1_does hτ (by norm_num) rfl rfl (ix.cons circuit_nil) ex hx (by norm_num) (one_same _)) fun _ _ => ?_
  refine Does.bind (undo_does rfl rfl (hb _ (by norm_num))) fun _ _ => ?_
  refine Does.bind (assertLength_does rfl rfl (hb _ (by norm_num))) fun _ _ => ?_
  refine Does.bind (assertProduct1_does hτ (by norm_num) rfl rfl circuit_nil rfl hi (by norm_num) (SamePhase.refl _)) fun _ _ => ?_
  refine Does.bind (undo_raises rfl rfl (hb _ (by norm_num))) fun _ _ => ?_
  refine Does.bind (gate_does hτ (by norm_num) iy ey hy) ?_
  rintro _ rfl
  refine Does.bind (appendFirst_does rfl rfl (Ideal.fits vy) rfl (hb _ (by norm_num))) fun _ _ => ?_
  refine Does.bind (gate_does hτ (by norm_num) iy ey hy) ?_
  rintro _ rfl
  refine Does.bind (appendFirst_does rfl rfl (Ideal.fits vy) rfl (hb _ (by norm_num))) fun _ _ => ?_
  refine Does.bind (assertLength_does rfl rfl (hb _ (by norm_num))) fun _ _ => ?_
  refine Does.bind (assertProduct1_does hτ (by norm_num) rfl rfl (iy.cons (iy.cons circuit_nil)) rfl hi (by norm_num) YY) fun _ _ => ?_
  refine Does.bind (removeLast_does rfl (by simp) rfl (hb _ (by norm_num))) fun _ _ => ?_
  refine Does.bind (assertLength_does rfl rfl (hb _ (by norm_num))) fun _ _ => ?_
  refine Does.bind (assertProduct1_does hτ (by norm_num) rfl rfl (iy.cons circuit_nil) ey hy (by norm_num) (one_same _)) fun _ _ => ?_
  refine Does.bind (undo_does rfl rfl (hb _ (by norm_num))) fun _ _ => ?_
  refine Does.bind (assertLength_does rfl rfl (hb _ (by norm_num))) fun _ _ => ?_
  refine Does.bind (assertProduct1_does hτ (by norm_num) rfl rfl (iy.cons (iy.cons circuit_nil)) rfl hi (by norm_num) YY) fun _ _ => ?_
  exact (undo_raises rfl rfl (hb _ (by norm_num))).last

/-! ## Combining -/

theorem pass_sequenceCombine (hτ : Fine τ) (rng : Rng) : (sequenceCombine τ (Client.start rng)).1 = .ok () := by
  obtain ⟨t, et, ht⟩ := tLiteral_gives hτ
  obtain ⟨-, ⟨y, ey, hy, -⟩, -⟩ := paulis_give hτ
  obtain ⟨vt, it⟩ := ideal T_mem
  obtain ⟨vy, iy⟩ := ideal Y_mem
  have hb : ∀ k ≤ 14, Budget 1 τ 1.25e-12 1e-10 k := fun k hk => (budget1 hτ hk).1
  refine Does.pass (P := At1 τ 0 [] []) (Q := fun _ => True) ?_ (start1 rng)
  unfold sequenceCombine
  refine Does.bind (gate_does hτ (by norm_num) it et ht) ?_
  rintro _ rfl
  refine Does.bind (newSeq_does (m := 1) (k' := 3) le_rfl rfl (getAll_replicate (a := on0 vt) rfl 3)
    (fun x hx => by rw [List.eq_of_mem_replicate hx]; exact Ideal.fits vt) rfl (hb _ (by norm_num))) ?_
  intro s hs
  obtain rfl : s = 0 := hs
  refine Does.bind (gate_does hτ (by norm_num) iy ey hy) ?_
  rintro _ rfl
  refine Does.bind (newSeq_does (m := 1) (k' := 4) (vs := [on0 vy]) le_rfl rfl rfl (by simpa using Ideal.fits vy) rfl
    (hb _ (by norm_num))) ?_
  intro s hs
  obtain rfl : s = 1 := hs
  refine Does.bind (combine_does (v := ⟨2, true, List.replicate 3 (on0 vt), none⟩) (vs := [⟨2, false, [on0 vy], none⟩]) rfl
    (by simp) (k' := 14) rfl (hb _ (by norm_num))) ?_
  intro s hs
  obtain rfl : s = 2 := hs
  refine Does.bind (length_does rfl (hb _ (by norm_num))) ?_
  rintro _ rfl
  refine Does.bind (length_does rfl (hb _ (by norm_num))) ?_
  rintro _ rfl
  refine Does.bind (assertLength_does rfl rfl (hb _ (by norm_num))) fun _ _ => ?_
  have hx := (budget1 hτ (k := 14) le_rfl).2
  refine Does.bind (product_does (m := 1) rfl rfl (hb _ (by norm_num))) fun q hq => ?_
  refine Does.bind (product_does (m := 1) rfl rfl (hb _ (by norm_num))) fun q1 hq1 => ?_
  refine Does.bind (product_does (m := 1) rfl rfl (hb _ (by norm_num))) fun q2 hq2 => ?_
  have c1 := it.replicate 3
  have c2 := iy.cons circuit_nil
  have c3 := it.cons (it.cons (it.cons c2))
  have hT := pow_mem T_mem 3
  have hY := mul_mem (one_mem _) Y_mem
  have r := rep_of_near hq hx (by norm_num) (by norm_num) c3 (mul_mem (mul_mem (mul_mem hY T_mem) T_mem) T_mem)
  have r1 := rep_of_near hq1 hx (by norm_num) (by norm_num) c1 hT
  have r2 := rep_of_near hq2 hx (by norm_num) (by norm_num) c2 hY
  obtain ⟨w, ew, hw⟩ := r1.mul hτ r2 (by norm_num)
  refine (Does.lift (a := ()) ?_ trivial).last
  rw [ew, ok_bind, r.close hτ hw (by norm_num) (by norm_num) (same_of_eq (by noncomm_ring)), assertIs_ok]

/-! ## Inverting -/

/-- No entry object occurs twice. -/
def Distinct (c : Client) : Prop := c.entries.Nodup ∧ ∀ (r : ℕ) (o : SeqObj), c.world.seqs[r]? = some o → o.entries.Nodup

theorem Does.also {α : Type} {P Q R R' : Client → Prop} {m : PyM Client α} {F : α → Prop} (h : Does P m F Q)
    (h' : ∀ c a c', P c → R c → m c = (.ok a, c') → R' c') : Does (fun c => P c ∧ R c) m F (fun c => Q c ∧ R' c) := by
  rintro c ⟨hc, hr⟩
  obtain ⟨a, c', e, ha, hq⟩ := h c hc
  exact ⟨a, c', e, ha, hq, h' c a c' hc hr e⟩

theorem At.lt {c : Client} (h : At n τ ε k p c) : ∀ r ∈ c.entries, r < c.world.entries.length := by
  intro r hr
  obtain ⟨i, hi, rfl⟩ := List.mem_iff_getElem.mp hr
  rcases forall₂_getElem? h.ents i with ⟨h1, -⟩ | ⟨r, v, h1, -, ⟨o, ho, -⟩, -⟩
  · rw [List.getElem?_eq_getElem hi] at h1; cases h1
  · rw [List.getElem?_eq_getElem hi] at h1; cases h1
    exact (List.getElem?_eq_some_iff.mp ho).1

theorem perform_state {α : Type} (op : Op) (f : Client.Obs → Option α) (c : Client) : (perform τ op f c).2 = (c.step τ op).2 := by
  unfold perform
  split <;> rename_i h
  · rw [h]; split <;> rfl
  · rw [h]

theorem step_newEntry_distinct {u : Unitary} {qs : List ℤ} {c : Client} (hc : At n τ ε k p c) (hd : Distinct c) :
    Distinct (c.step τ (.newEntry u qs)).2 := by
  simp only [Client.step, Client.call, Entry.new, PyM.bind_apply, PyM.lift_apply]
  rcases EntryVal.new u qs with e | v
  · exact hd
  · refine ⟨?_, hd.2⟩
    simp only [World.allocEntry]
    rw [List.nodup_append']
    refine ⟨hd.1, by simp, ?_⟩
    intro a ha hb
    rw [List.mem_singleton] at hb
    exact absurd (hc.lt a ha) (by omega)

theorem getAll_mem {α : Type} {l : List α} {is : List ℕ} {as : List α} (h : getAll l is = some as) : ∀ a ∈ as, a ∈ l := by
  induction is generalizing as with
  | nil => cases h; simp
  | cons i is ih =>
    simp only [getAll] at h
    split at h
    · rename_i a as' h1 h2
      cases h
      intro b hb
      rcases List.mem_cons.mp hb with rfl | hb
      · exact List.mem_of_getElem? h1
      · exact ih h2 b hb
    · cases h

theorem step_newSeq_distinct {D : ℕ} {arr : Bool} {es : List ℕ} {c : Client} (hc : At n τ ε k p c) (hd : Distinct c)
    (hes : ∀ rs, getAll c.entries es = some rs → rs.Nodup) : Distinct (c.step τ (.newSeq D arr es)).2 := by
  simp only [Client.step, Client.with_]
  rcases hg : getAll c.entries es with _ | rs
  · exact hd
  simp only [Client.call]
  obtain ⟨h1, h2⟩ := (new_wp (D := D) (arr := arr) hc.wf fun r hr => hc.lt r (getAll_mem hg r hr) : Wp _ _ _)
  by_cases h : RefsOk c.world.entries D rs
  · obtain ⟨rs', e, -, hseq, hcop⟩ := h2 h
    rcases hx : Seq.new D arr rs c.world with ⟨x, w'⟩
    rw [hx] at e hseq hcop
    simp only at e hseq hcop
    subst e
    refine ⟨by simpa using hd.1, fun r o ho => ?_⟩
    simp only at ho
    rw [hseq] at ho
    rcases List.mem_append.mp (List.mem_of_getElem? ho) with hm | hm
    · obtain ⟨j, hj, rfl⟩ := List.mem_iff_getElem.mp hm
      exact hd.2 j _ (List.getElem?_eq_getElem hj)
    · rw [List.mem_singleton] at hm
      subst hm
      exact hcop.nodup (hes rs hg)
  · obtain ⟨e1, e2⟩ := h1 h
    rcases hx : Seq.new D arr rs c.world with ⟨x, w'⟩
    rw [hx] at e1 e2
    simp only at e1 e2
    subst e1 e2
    exact hd

theorem step_product_distinct {s : ℕ} {c : Client} (hc : At n τ ε k p c) (hd : Distinct c) :
    Distinct (c.step τ (.product s)).2 := by
  simp only [Client.step, Client.with_]
  rcases forall₂_getElem? hc.seqs s with ⟨h1, h2⟩ | ⟨r, v, h1, h2, o, m, ho, hv⟩
  · rw [h1]; exact hd
  rw [h1]
  simp only [Client.call]
  obtain ⟨o', hp⟩ := (product_wp hc.wf ho : Wp _ _ _)
  rcases hx : Seq.product τ r c.world with ⟨x, w'⟩
  rw [hx] at hp
  simp only at hp
  have key : ∀ (r' : ℕ) (x : SeqObj), w'.seqs[r']? = some x → x.entries.Nodup := by
    intro r' x hx
    rw [hp.step.eq] at hx
    simp only [List.getElem?_set] at hx
    split at hx
    · split at hx
      · cases hx
        rw [hp.same.entries]
        exact hd.2 r o ho
      · cases hx
    · exact hd.2 _ _ hx
  rcases x with e | u
  · exact ⟨hd.1, key⟩
  · exact ⟨by simpa using hd.1, key⟩

theorem distinct_start (rng : Rng) : Distinct (Client.start rng) := ⟨by simp [Client.start], by simp [Client.start]⟩

/-- The states of the test of `inverse()`. -/
abbrev At2 (τ : Arith) (k : ℕ) (es : List EntryVal) (ss : List SeqView) (c : Client) : Prop := At1 τ k es ss c ∧ Distinct c

theorem gate2_does {es : List EntryVal} {ss : List SeqView} {r : Except PyErr Unitary} {u v : Unitary}
    {V : Matrix (Fin 2) (Fin 2) ℂ} (hτ : Fine τ) (hk : k ≤ 14) (hv : Ideal v V) (hr : r = .ok u) (hu : Rep u V 1) :
    Does (At2 τ k es ss) (newEntry τ r [0]) (fun i => i = es.length) (At2 τ k (es ++ [on0 v]) ss) := by
  refine (gate_does hτ hk hv hr hu).also fun c a c' hc hd e => ?_
  have h2 : c' = (c.step τ (.newEntry u [0])).2 := by
    rw [← perform_state (.newEntry u [0]) (fun _ => some ()) c]
    rw [hr] at e
    unfold newEntry at e
    rw [PyM.bind_of_ok (PyM.lift_apply _ _), PyM.bind_of_ok (show PyM.get c = (.ok c, c) from rfl), PyM.bind_eq_ok_iff] at e
    obtain ⟨_, s, e1, e2⟩ := e
    cases e2
    show c' = (call τ _ c).2
    rw [e1]
  rw [h2]
  exact step_newEntry_distinct hc hd

theorem newSeq2_does {es ss} (hτ : Fine τ) {is : List ℕ} {vs : List EntryVal} {k' : ℕ} (hvs : getAll es is = some vs)
    (hf : ∀ v ∈ vs, Plain.fits 2 v) (hk : k + is.length = k') (hk' : k' ≤ 14)
    (hn : ∀ c rs, At2 τ k es ss c → getAll c.entries is = some rs → rs.Nodup) :
    Does (At2 τ k es ss) (newSeq τ 2 false is) (fun i => i = ss.length) (At2 τ k' es (ss ++ [⟨2, false, vs, none⟩])) := by
  refine (newSeq_does (D := 2) (p := ⟨es, ss⟩) (m := 1) le_rfl rfl hvs hf hk (budget1 hτ hk').1).also fun c a c' hc hd e => ?_
  have h2 : c' = (c.step τ (.newSeq 2 false is)).2 := by
    rw [← perform_state (.newSeq 2 false is) (fun _ => some ()) c]
    unfold newSeq at e
    rw [PyM.bind_of_ok (show PyM.get c = (.ok c, c) from rfl), PyM.bind_eq_ok_iff] at e
    obtain ⟨_, s, e1, e2⟩ := e
    cases e2
    show c' = (call τ _ c).2
    rw [e1]
  rw [h2]
  exact step_newSeq_distinct hc hd fun rs h => hn c rs ⟨hc, hd⟩ h

theorem product2_does {es ss} {s : ℕ} {v : SeqView} (hτ : Fine τ) (hk : k ≤ 14) (hs : ss[s]? = some v) (hd : v.dimension = 2) :
    Does (At2 τ k es ss) (product τ s) (fun u => u.Near (circuit 1 v.entries) (driftErr 1 1.25e-12 1e-10 k)) (At2 τ k es ss) := by
  refine (product_does (p := ⟨es, ss⟩) (m := 1) hs hd (budget1 hτ hk).1).also fun c a c' hc hd e => ?_
  have h2 : c' = (c.step τ (.product s)).2 := by
    have := perform_state (τ := τ) (.product s) (fun | .unitary u => some u | _ => none) c
    rw [← this]
    exact (congrArg Prod.snd e).symm
  rw [h2]
  exact step_product_distinct hc hd

/-- The error of gates after one inversion. -/
def εi : ℝ := 1e-10 + 3 * 2 ^ 1 * 1.25e-12

theorem budgetI (hτ : Fine τ) (hk : k ≤ 4) : Budget 1 τ 1.25e-12 εi k ∧ driftErr 1 1.25e-12 εi k ≤ (19 : ℕ) * 1e-10 := by
  have h : driftErr 1 1.25e-12 εi 4 ≤ (19 : ℕ) * 1e-10 := by unfold driftErr stepErr εi; norm_num
  have hb : Budget 1 τ 1.25e-12 εi 4 :=
    ⟨hτ.mono (by norm_num), by norm_num, by unfold εi; norm_num, h.trans (by unfold driftLimit; norm_num)⟩
  exact ⟨hb.mono hk, (driftErr_mono hb.t0 hb.eps hk).trans h⟩

theorem inverse2_does {es ss} {s : ℕ} {v : SeqView} (hτ : Fine τ) (hk : k + 1 ≤ 4) (hs : ss[s]? = some v) (ha : v.isArray = false) :
    Does (At2 τ k es ss) (inverse τ s) (fun i => i = ss.length)
      (At 1 τ εi (k + 1) ⟨es, ss ++ [⟨v.dimension, false, (v.entries.map EntryVal.dagger).reverse, none⟩]⟩) := by
  rintro c ⟨hc, hd⟩
  obtain ⟨h1, h2⟩ := near_inverse hc (by norm_num) (s := s) (fun r o _ ho => hd.2 r o ho) (budgetI hτ hk).1
  have hp : Plain.step ⟨es, ss⟩ (.inverse s) =
      (.ok .handle, ⟨es, ss ++ [⟨v.dimension, false, (v.entries.map EntryVal.dagger).reverse, none⟩]⟩) := by
    simp [Plain.step, hs, Plain.with_, ha]
  rw [hp] at h1 h2
  rcases hx : c.step τ (.inverse s) with ⟨_ | obs, c'⟩
  · rw [hx] at h1; exact absurd h1 (by simp [NearResult])
  · rw [hx] at h2
    refine ⟨c.seqs.length, c', ?_, List.Forall₂.length_eq hc.seqs, h2⟩
    unfold inverse
    rw [PyM.bind_of_ok (show PyM.get c = (.ok c, c) from rfl), PyM.bind_of_ok (a := ()) (s' := c') (by unfold call perform; rw [hx])]
    rfl

theorem clearProduct_does {s : ℕ} {v : SeqView} (hs : p.seqs[s]? = some v) (hu : v.undo = none) :
    Does (At n τ ε k p) (clearProduct s) (fun _ => True) (At n τ ε k p) := by
  intro c hc
  rcases forall₂_getElem? hc.seqs s with ⟨h1, h2⟩ | ⟨r, v', h1, h2, o, m, ho, hv⟩
  · rw [hs] at h2; cases h2
  rw [hs] at h2; cases h2
  refine ⟨(), _, by unfold clearProduct; simp only [h1, Option.bind_some, ho, Option.map_some]; rfl, trivial, ?_⟩
  have hnp : o.previousProduct = none := by
    rcases h : o.previousProduct with _ | q
    · rfl
    · obtain ⟨gs, hg, -⟩ := hv.ok.prevP q h
      rw [hu] at hg; cases hg
  have hrl := (List.getElem?_eq_some_iff.mp ho).1
  refine ⟨⟨hc.wf.entries, ?_⟩, hc.ents, ?_, hc.nodup⟩
  · intro x hx
    rcases List.mem_or_eq_of_mem_set hx with hx | rfl
    · exact hc.wf.seqs x hx
    · exact ⟨(hc.wf.seq ho).entries, (hc.wf.seq ho).prev⟩
  · refine hc.seqs.imp ?_
    rintro r' v' ⟨o', m', ho', hv'⟩
    by_cases h : r = r'
    · subst h
      rw [ho] at ho'; cases ho'
      refine ⟨{ o with product := none }, m', by simp [hrl], hv'.le, hv'.dim, hv'.arr, ?_⟩
      exact ⟨hv'.ok.dim, hv'.ok.ents, hv'.ok.gok, hv'.ok.len, by simp, hv'.ok.prevE, hv'.ok.prevG, hv'.ok.prevP, fun _ => hnp⟩
    · exact ⟨o', m', by simpa [List.getElem?_set, h] using ho', hv'.le, hv'.dim, hv'.arr, hv'.ok⟩

theorem pass_sequenceInverse (hτ : Fine τ) (rng : Rng) : (sequenceInverse τ (Client.start rng)).1 = .ok () := by
  have hθ : |Real.pi / 3| ≤ 100 := by rw [abs_of_pos (by positivity)]; linarith [Real.pi_le_four]
  obtain ⟨⟨x, ex, hx, -⟩, ⟨y, ey, hy, -⟩, -⟩ := rx_gives hτ hθ
  obtain ⟨vx, ix⟩ := ideal hx.mem
  obtain ⟨vy, iy⟩ := ideal hy.mem
  refine Does.pass (P := At2 τ 0 [] []) (Q := fun _ => True) ?_ ⟨start1 rng, distinct_start rng⟩
  unfold sequenceInverse
  refine Does.bind (gate2_does hτ (by norm_num) ix ex hx) ?_
  rintro _ rfl
  refine Does.bind (gate2_does hτ (by norm_num) iy ey hy) ?_
  rintro _ rfl
  refine Does.bind (newSeq2_does hτ (vs := [on0 vx, on0 vy]) rfl (by simpa using ⟨Ideal.fits vx, Ideal.fits vy⟩) rfl (by norm_num)
    (fun c rs hc hrs => ?_)) ?_
  · have := List.Forall₂.length_eq hc.1.ents
    obtain ⟨a, b, hab⟩ := List.length_eq_two.mp this
    have hn := hc.2.1
    rw [hab] at hrs hn
    cases hrs
    exact hn
  intro s hs
  obtain rfl : s = 0 := hs
  refine Does.bind (product2_does hτ (by norm_num) rfl rfl) fun q hq => ?_
  refine Does.bind (inverse2_does hτ (by norm_num) rfl rfl) ?_
  intro s hs
  obtain rfl : s = 1 := hs
  have hm := mul_mem (mul_mem (one_mem _) hy.mem) hx.mem
  have hq := rep_of_near hq (budget1 hτ (by norm_num)).2 (by norm_num) (by norm_num) (ix.cons (iy.cons circuit_nil)) hm
  obtain ⟨q', eq, hq', -⟩ := hq.inverse hτ (by norm_num)
  have hc : SamePhase (circuit 1 ([on0 vx, on0 vy].map EntryVal.dagger).reverse) (circuit 1 [on0 vx, on0 vy])ᴴ := by
    refine same_of_eq ?_
    simp only [List.map_cons, List.map_nil, List.reverse_cons, List.reverse_nil, List.nil_append, List.cons_append, circuit, op_dagger]
    simp [conjTranspose_mul]
  have hc2 : SamePhase (circuit 1 [on0 vx, on0 vy])ᴴ (1 * Gate.rot Gate.Y (Real.pi / 3) * Gate.rot Gate.X (Real.pi / 3))ᴴ :=
    (ix.cons (iy.cons circuit_nil)).conjTranspose
  refine Does.bind (assertProduct_does (m := 1) hτ rfl rfl (by norm_num) (budgetI hτ (by norm_num)).1 (budgetI hτ (by norm_num)).2
    (by norm_num) hc eq hq' (by norm_num) hc2) fun _ _ => ?_
  refine Does.bind (clearProduct_does rfl rfl) fun _ _ => ?_
  exact (assertProduct_does (m := 1) hτ rfl rfl (by norm_num) (budgetI hτ (by norm_num)).1 (budgetI hτ (by norm_num)).2
    (by norm_num) hc eq hq' (by norm_num) hc2).last

/-! ## Texts -/

theorem freshLines_near {m : ℕ} {f : Unitary → String} {es : List EntryVal} {gs : List Gate} (hb : Budget m τ 1.25e-12 ε (k + 1))
    (h : RealisesAll ε es gs) (hg : ∀ g ∈ gs, g.Ok m) : ∃ ls, freshLines τ f (2 ^ m) es = .ok ls := by
  induction h with
  | nil => exact ⟨[], rfl⟩
  | cons he _ ih =>
    obtain ⟨u, hu, -⟩ := full_drift hb (hg _ (by simp)) he
    obtain ⟨ls, hl⟩ := ih fun g hm => hg g (by simp [hm])
    exact ⟨f u :: ls, by simp [freshLines, hu, hl]⟩

theorem textOf_does {s : ℕ} {v : SeqView} {header : String} {f : Unitary → String} (hs : p.seqs[s]? = some v)
    (hb : Budget n τ 1.25e-12 ε (k + 1)) (hh : header ≠ "") :
    Does (At n τ ε k p) (textOf (Seq.textOutput τ header f) s) (fun t => t ≠ "") (At n τ ε k p) := by
  intro c hc
  rcases forall₂_getElem? hc.seqs s with ⟨h1, h2⟩ | ⟨r, v', h1, h2, o, m, ho, hv⟩
  · rw [hs] at h2; cases h2
  rw [hs] at h2; cases h2
  have hso := hc.wf.seq ho
  obtain ⟨ls, hls⟩ := freshLines_near (f := f) (hb.dim' hv.le) hv.ok.ents hv.ok.gok
  rw [← hv.ok.dim] at hls
  have hw : Wp (Seq.textOutput τ header f r) (fun res w' =>
      res = .ok (header ++ "\n".intercalate ls) ∧ Caches τ c.world w') c.world := by
    unfold Seq.textOutput
    refine Wp.getSeq_bind ho (Wp.bind ((textLines_wp o.entries c.world hc.wf.entries hso.entries.lt).mono ?_))
    rintro res w' ⟨hres, hca⟩
    rw [hls] at hres
    subst hres
    exact Wp.pure ⟨rfl, hca⟩
  unfold Wp at hw
  rcases hx : Seq.textOutput τ header f r c.world with ⟨res, w'⟩
  rw [hx] at hw
  obtain ⟨hres, hca⟩ := hw
  simp only at hres hca
  subst hres
  refine ⟨header ++ "\n".intercalate ls, { c with world := w' }, ?_, ?_, ?_⟩
  · unfold textOf
    rw [PyM.bind_of_ok (show PyM.get c = (.ok c, c) from rfl)]
    simp only [h1, PyM.zoom, hx]
  · intro h
    rw [← String.toList_inj, String.toList_append] at h
    refine hh ?_
    rw [← String.toList_inj]
    exact (List.append_eq_nil_iff.mp h).1
  · have hseq : w'.seqs = c.world.seqs ++ [] := by rw [hca.eq]; simp
    have hwf : w'.WF τ := by
      refine ⟨hca.ok, ?_⟩
      intro x hx
      rw [hseq, List.append_nil] at hx
      exact (hc.wf.seqs x hx).grow hca.grow
    have := hc.ext hwf hca.grow hseq (ne := []) (ns := []) (nv := []) (nsv := []) .nil .nil (by simpa using hc.nodup)
    simp only [List.append_nil] at this
    exact this

theorem pass_outputFormats (hτ : Fine τ) (fmt : ℕ → ℝ → String) (rng : Rng) : (outputFormats τ fmt (Client.start rng)).1 = .ok () := by
  have hθ : |Real.pi / 3| ≤ 100 := by rw [abs_of_pos (by positivity)]; linarith [Real.pi_le_four]
  obtain ⟨⟨x, ex, hx, -⟩, ⟨y, ey, hy, -⟩, -⟩ := rx_gives hτ hθ
  obtain ⟨vx, ix⟩ := ideal hx.mem
  obtain ⟨vy, iy⟩ := ideal hy.mem
  have hb : ∀ k ≤ 14, Budget 1 τ 1.25e-12 1e-10 k := fun k hk => (budget1 hτ hk).1
  refine Does.pass (P := At1 τ 0 [] []) (Q := fun _ => True) ?_ (start1 rng)
  unfold outputFormats
  refine Does.bind (gate_does hτ (by norm_num) ix ex hx) ?_
  rintro _ rfl
  refine Does.bind (gate_does hτ (by norm_num) iy ey hy) ?_
  rintro _ rfl
  refine Does.bind (newSeq_does (m := 1) (vs := [on0 vx, on0 vy]) le_rfl rfl rfl
    (by simpa using ⟨Ideal.fits vx, Ideal.fits vy⟩) rfl (hb _ (by norm_num))) ?_
  intro s hs
  obtain rfl : s = 0 := hs
  refine Does.bind (textOf_does rfl (hb _ (by norm_num)) (by decide)) fun _ h => ?_
  refine Does.bind (Does.assert h) fun _ _ => ?_
  refine Does.bind (textOf_does rfl (hb _ (by norm_num)) (by decide)) fun _ h => ?_
  refine Does.bind (Does.assert h) fun _ _ => ?_
  refine Does.bind (textOf_does rfl (hb _ (by norm_num)) (by decide)) fun _ h => ?_
  exact (Does.assert h).last

/-! ## Entries on up to four qubits -/

theorem ideal4 {m : ℕ} {V : Matrix (Fin (2 ^ m)) (Fin (2 ^ m)) ℂ} (hV : V ∈ unitaryGroup _ ℂ) :
    ∃ v : Unitary, v.Exact (2 ^ m) ∧ SamePhase (v.matrix.toMatrix (2 ^ m)) V := by
  have ha : (Arr.ofMatrix V).Is V := by
    refine ⟨rfl, rfl, ?_⟩
    ext i j
    simp only [Arr.toMatrix, Arr.ofMatrix, i.isLt, j.isLt, and_self, dite_true, Fin.eta]
  obtain ⟨v, -, h1, h2, -⟩ := C01_construct_ok (Nat.two_pow_pos m) ha hV none none false []
  exact ⟨v, h1, h2⟩

theorem budget4 (hτ : Fine τ) (hk : k ≤ 4) : Budget 4 τ 1.25e-12 1e-10 k ∧ driftErr 4 1.25e-12 1e-10 k ≤ (14 : ℕ) * 1e-10 := by
  have h : driftErr 4 1.25e-12 1e-10 4 ≤ (14 : ℕ) * 1e-10 := by unfold driftErr stepErr; norm_num
  have hb : Budget 4 τ 1.25e-12 1e-10 4 := ⟨hτ.mono (by norm_num), by norm_num, by norm_num, h.trans (by unfold driftLimit; norm_num)⟩
  exact ⟨hb.mono hk, (driftErr_mono hb.t0 hb.eps hk).trans h⟩

/-- Shorthand for the states of these tests. -/
abbrev At4 (τ : Arith) (k : ℕ) (es : List EntryVal) : Client → Prop := At 4 τ 1e-10 k ⟨es, []⟩

theorem start4 (rng : Rng) : At4 τ 0 [] (Client.start rng) := relNear_start rng

theorem entryNew {v : Unitary} {qs : List ℕ} (hv : v.Exact (2 ^ qs.length)) (hq : qs.Nodup) (hne : qs ≠ []) :
    EntryVal.new v (qs.map (fun q : ℕ => (q : ℤ))) = .ok ⟨v, qs⟩ := by
  unfold EntryVal.new
  rw [assertE_of (hq.map Nat.cast_injective), ok_bind, hv.dim, assertE_of (by simp), ok_bind, raiseUnless_of (by simpa using hne),
    ok_bind, assertE_of (by simp), ok_bind]
  simp [Function.comp_def]

theorem entry4_does {u v : Unitary} {r : Except PyErr Unitary} {qs : List ℕ} {zs : List ℤ} {es : List EntryVal}
    {V : Matrix (Fin (2 ^ qs.length)) (Fin (2 ^ qs.length)) ℂ} (hτ : Fine τ) (hr : r = .ok u) (hu : Rep u V 1)
    (hv : v.Exact (2 ^ qs.length)) (hp : SamePhase (v.matrix.toMatrix (2 ^ qs.length)) V) (hz : zs = qs.map (fun q : ℕ => (q : ℤ)))
    (hq : qs.Nodup) (hne : qs ≠ []) :
    Does (At4 τ 0 es) (newEntry τ r zs) (fun i => i = es.length) (At4 τ 0 (es ++ [⟨v, qs⟩])) :=
  newEntry_does hr hv (by
    have := (hu.phase hp.symm hv.unitary).near
    simpa using this) (by rw [hz]; exact entryNew hv hq hne) (budget4 hτ (by norm_num)).1

theorem full4_does {e m D : ℕ} {es : List EntryVal} {v : Unitary} {qs : List ℕ}
    {V : Matrix (Fin (2 ^ qs.length)) (Fin (2 ^ qs.length)) ℂ} {W : Matrix (Fin (2 ^ m)) (Fin (2 ^ m)) ℂ} (hτ : Fine τ)
    (hk : k + 1 ≤ 4) (he : es[e]? = some ⟨v, qs⟩) (hm : m ≤ 4) (hD : D = 2 ^ m) (hf : ∀ q ∈ qs, q < m)
    (hp : SamePhase (v.matrix.toMatrix (2 ^ qs.length)) V) (hW : embed m qs V = W) (hWm : W ∈ unitaryGroup _ ℂ) :
    Does (At4 τ k es) (fullUnitary τ e D) (fun u => Rep u W 14) (At4 τ (k + 1) es) := by
  refine (fullUnitary_does (p := ⟨es, []⟩) he hm hD (fun q hq => Nat.pow_le_pow_right (by norm_num) (hf q hq))
    (budget4 hτ hk).1).mono (fun _ h => h) (fun u hu => ?_) (fun _ h => h)
  refine rep_of_near hu (budget4 hτ hk).2 (Nat.two_pow_pos m) ?_ ?_ hWm
  · calc 2 ^ m ≤ 2 ^ 4 := Nat.pow_le_pow_right (by norm_num) hm
      _ = 16 := rfl
  · obtain ⟨c, hc, h⟩ := hp
    refine ⟨c, hc, ?_⟩
    simp only [EntryVal.op]
    rw [h, embed_smul, hW]

theorem entryAttr_does {α : Type} {f : EntryObj → α} {e : ℕ} {g : EntryVal} {a : α} (he : p.entries[e]? = some g)
    (hf : ∀ o : EntryObj, o.toVal.Realises g.gate ε → f o = a) :
    Does (At n τ ε k p) (entryAttr f e) (fun x => x = a) (At n τ ε k p) := by
  intro c hc
  rcases forall₂_getElem? hc.ents e with ⟨-, h2⟩ | ⟨r, v', h1, h2, ⟨o, ho, hr⟩, -⟩
  · rw [he] at h2; cases h2
  · rw [he] at h2; cases h2
    exact ⟨f o, c, by simp [entryAttr, h1, ho], hf o hr, hc⟩

theorem pass_entryIdentity (hτ : Fine τ) (rng : Rng) : (entryIdentity τ (Client.start rng)).1 = .ok () := by
  obtain ⟨i, ei, hi⟩ := identity_gives hτ (by norm_num : 0 < 2) (by norm_num)
  obtain ⟨v, hv, hp⟩ := ideal4 (m := 1) (one_mem _)
  refine Does.pass (P := At4 τ 0 []) (Q := fun _ => True) ?_ (start4 rng)
  unfold entryIdentity
  refine Does.bind (entry4_does (qs := [0]) hτ ei (hi.mono (by norm_num)) hv hp rfl (by simp) (by simp)) ?_
  rintro _ rfl
  refine Does.bind (entryAttr_does (g := ⟨v, [0]⟩) (a := 2) rfl fun o ho => ho.2.dim) ?_
  rintro _ rfl
  refine Does.bind (Does.assert rfl) fun _ _ => ?_
  refine Does.bind (entryAttr_does (g := ⟨v, [0]⟩) (a := [0]) rfl fun o ho => ho.1) ?_
  rintro _ rfl
  refine Does.bind (Does.assert rfl) fun _ _ => ?_
  have step : ∀ k m, k + 1 ≤ 4 → 1 ≤ m → m ≤ 4 → Does (At4 τ k [⟨v, [0]⟩]) (do
      let u ← fullUnitary τ 0 (2 ^ m)
      PyM.lift (assertIs true (do u.closeTo τ (← Unitary.identity τ (2 ^ m)) none))) (fun _ => True) (At4 τ (k + 1) [⟨v, [0]⟩]) := by
    intro k m hk h1 hm
    have h16 : 2 ^ m ≤ 16 := (Nat.pow_le_pow_right (by norm_num) hm).trans (by norm_num : 2 ^ 4 ≤ 16)
    obtain ⟨j, ej, hj⟩ := identity_gives hτ (Nat.two_pow_pos m) h16
    refine Does.bind (full4_does (qs := [0]) hτ hk rfl hm rfl (by simpa using Nat.pos_of_ne_zero (by omega)) hp
      (embed_one (by simp) (by simpa using Nat.pos_of_ne_zero (by omega))) (one_mem _)) fun u hu => ?_
    refine Does.lift (a := ()) ?_ trivial
    rw [ej, ok_bind, hu.close hτ hj (by norm_num) (by norm_num) (SamePhase.refl _), assertIs_ok]
  rw [List.forM_eq_forM]
  simp only [List.forM_cons, List.forM_nil]
  refine Does.bind (step 0 1 (by norm_num) (by norm_num) (by norm_num)) fun _ _ => ?_
  refine Does.bind (step 1 2 (by norm_num) (by norm_num) (by norm_num)) fun _ _ => ?_
  refine Does.bind (step 2 3 (by norm_num) (by norm_num) (by norm_num)) fun _ _ => ?_
  refine Does.bind (step 3 4 (by norm_num) (by norm_num) (by norm_num)) fun _ _ => ?_
  exact (Does.pure trivial).last

theorem embed_two (M : Matrix (Fin 4) (Fin 4) ℂ) : embed 2 [0, 1] M = M := by
  ext i j
  have hi := i.2; have hj := j.2
  have g : ∀ a : ℕ, a < 2 ^ 2 → gather 2 [0, 1] a = a := by intro a ha; simp [gather, qubit]; omega
  have h : AgreeOff 2 [0, 1] i j := by intro q hq hn; interval_cases q <;> simp at hn
  simp only [embed, if_pos h, g _ hi, g _ hj]
  rfl

theorem embed_three (M : Matrix (Fin 4) (Fin 4) ℂ) : embed 3 [0, 1] M = tensorMat (d₁ := 4) (d₂ := 2) (d := 8) rfl M 1 := by
  ext i j
  have hi : i.1 < 8 := i.2
  have hj : j.1 < 8 := j.2
  have g : ∀ a : ℕ, a < 8 → gather 3 [0, 1] a = a / 2 := by intro a ha; simp [gather, qubit]; omega
  have h : AgreeOff 3 [0, 1] i j ↔ i.1 % 2 = j.1 % 2 := by
    constructor
    · intro h; have := h 2 (by norm_num) (by simp); simpa [qubit] using this
    · intro h q hq hn
      interval_cases q <;> simp at hn
      simpa [qubit] using h
  rw [tensorMat_apply]
  simp only [embed, g _ hi, g _ hj, one_apply, Fin.mk.injEq]
  by_cases hh : i.1 % 2 = j.1 % 2
  · rw [if_pos (h.mpr hh), if_pos hh, mul_one]
  · rw [if_neg (mt h.mp hh), if_neg hh, mul_zero]

theorem embed_four (M : Matrix (Fin 4) (Fin 4) ℂ) : embed 4 [0, 1] M = tensorMat (d₁ := 4) (d₂ := 4) (d := 16) rfl M 1 := by
  ext i j
  have hi : i.1 < 16 := i.2
  have hj : j.1 < 16 := j.2
  have g : ∀ a : ℕ, a < 16 → gather 4 [0, 1] a = a / 4 := by intro a ha; simp [gather, qubit]; omega
  have h : AgreeOff 4 [0, 1] i j ↔ i.1 % 4 = j.1 % 4 := by
    constructor
    · intro h
      have h2 := h 2 (by norm_num) (by simp)
      have h3 := h 3 (by norm_num) (by simp)
      simp [qubit] at h2 h3
      omega
    · intro h q hq hn
      interval_cases q <;> simp at hn <;> simp [qubit] <;> omega
  rw [tensorMat_apply]
  simp only [embed, g _ hi, g _ hj, one_apply, Fin.mk.injEq]
  by_cases hh : i.1 % 4 = j.1 % 4
  · rw [if_pos (h.mpr hh), if_pos hh, mul_one]
  · rw [if_neg (mt h.mp hh), if_neg hh, mul_zero]

theorem CNOT_mul : Gate.CNOT * Gate.CNOT = 1 := by
  ext i j
  rw [mul_apply]
  fin_cases i <;> fin_cases j <;> simp [Gate.CNOT, Fin.sum_univ_four]

theorem pass_entryCnot (hτ : Fine τ) (rng : Rng) : (entryCnot τ (Client.start rng)).1 = .ok () := by
  obtain ⟨c, ec, hc, -⟩ := NearGate.gives (k := 1) (C62_fixed (hτ.mono (by norm_num : 8 ≤ 16)) (by unfold driftLimit; norm_num)).1
    (by norm_num) (by norm_num) Gate.CNOT_unitary (by norm_num)
  obtain ⟨i2, e2, h2⟩ := identity_gives hτ (by norm_num : 0 < 2) (by norm_num)
  obtain ⟨i4, e4, h4⟩ := identity_gives hτ (by norm_num : 0 < 4) (by norm_num)
  obtain ⟨i16, e16, h16⟩ := identity_gives hτ (by norm_num : 0 < 16) (by norm_num)
  obtain ⟨v, hv, hp⟩ := ideal4 (m := 2) Gate.CNOT_unitary
  obtain ⟨t3, et3, ht3⟩ := hc.tensor hτ h2 (by norm_num) (d := 8) rfl (by norm_num)
  obtain ⟨t4, et4, ht4⟩ := hc.tensor hτ h4 (by norm_num) (d := 16) rfl (by norm_num)
  refine Does.pass (P := At4 τ 0 []) (Q := fun _ => True) ?_ (start4 rng)
  unfold entryCnot
  refine Does.bind (entry4_does (qs := [0, 1]) hτ ec hc hv hp rfl (by simp) (by simp)) ?_
  rintro _ rfl
  refine Does.bind (raises_does (op' := .fullUnitary 0 2) (k' := 1) (e := .assertion) ⟨rfl, 1, by norm_num, rfl⟩ rfl rfl
    (budget4 hτ (by norm_num)).1 (by
      simp only [Plain.step, Plain.with_, List.nil_append, List.getElem?_cons_zero]
      rw [if_neg (by simp [Plain.fits])]) rfl) fun _ _ => ?_
  refine Does.bind (full4_does (m := 2) (qs := [0, 1]) hτ (by norm_num) rfl (by norm_num) rfl (by simp) hp (embed_two _)
    Gate.CNOT_unitary) fun u hu => ?_
  refine Does.bind (Does.lift (F := fun _ => True) (a := ()) (by
    rw [ec, ok_bind, hu.close hτ hc (by norm_num) (by norm_num) (SamePhase.refl _), assertIs_ok]) trivial) fun _ _ => ?_
  refine Does.bind (full4_does (m := 3) (qs := [0, 1]) hτ (by norm_num) rfl (by norm_num) rfl (by simp) hp (embed_three _)
    ht3.mem) fun u hu => ?_
  refine Does.bind (Does.lift (F := fun _ => True) (a := ()) (by
    rw [ec, ok_bind, e2, ok_bind, et3, ok_bind, hu.close hτ ht3 (by norm_num) (by norm_num) (SamePhase.refl _), assertIs_ok]) trivial)
    fun _ _ => ?_
  refine Does.bind (full4_does (m := 4) (qs := [0, 1]) hτ (by norm_num) rfl (by norm_num) rfl (by simp) hp (embed_four _)
    ht4.mem) fun u hu => ?_
  refine Does.bind (Does.lift (F := fun _ => True) (a := ()) (by
    rw [ec, ok_bind, e4, ok_bind, et4, ok_bind, hu.close hτ ht4 (by norm_num) (by norm_num) (SamePhase.refl _), assertIs_ok]) trivial)
    fun _ _ => ?_
  obtain ⟨uu, euu, huu⟩ := hu.mul hτ hu (by norm_num)
  refine (Does.lift (a := ()) ?_ trivial).last
  have hs : SamePhase (tensorMat (d₁ := 4) (d₂ := 4) (d := 16) rfl Gate.CNOT 1 * tensorMat (d₁ := 4) (d₂ := 4) (d := 16) rfl Gate.CNOT 1) 1 := by
    refine same_of_eq ?_
    rw [← embed_four]
    have := embed_mul (n := 4) (a := [0, 1]) (by simp) (by simp) (A := Gate.CNOT) (B := Gate.CNOT)
    rw [← this, CNOT_mul]
    exact embed_one (by simp) (by simp)
  rw [euu, ok_bind, e16, ok_bind, huu.close hτ h16 (by norm_num) (by norm_num) hs, assertIs_ok]

/-- The gate expected by the test of swapped qubits. -/
def cnotSwapped : Matrix (Fin 4) (Fin 4) ℂ := !![1, 0, 0, 0; 0, 0, 0, 1; 0, 0, 1, 0; 0, 1, 0, 0]

theorem embed_swapped : embed 2 [1, 0] Gate.CNOT = cnotSwapped := by
  ext i j
  have h : AgreeOff 2 [1, 0] i j := by intro q hq hn; interval_cases q <;> simp at hn
  simp only [embed, if_pos h]
  clear h
  fin_cases i <;> fin_cases j <;> simp [gather, qubit, Gate.CNOT, cnotSwapped]

theorem pass_entryCnotSwapped (hτ : Fine τ) (rng : Rng) : (entryCnotSwapped τ (Client.start rng)).1 = .ok () := by
  obtain ⟨c, ec, hc, -⟩ := NearGate.gives (k := 1) (C62_fixed (hτ.mono (by norm_num : 8 ≤ 16)) (by unfold driftLimit; norm_num)).1
    (by norm_num) (by norm_num) Gate.CNOT_unitary (by norm_num)
  obtain ⟨v, hv, hp⟩ := ideal4 (m := 2) Gate.CNOT_unitary
  have hm : cnotSwapped ∈ unitaryGroup (Fin 4) ℂ := by
    rw [← embed_swapped]
    exact embed_mem_unitary (by simp) (by simp) Gate.CNOT_unitary
  have ha : (Arr.ofRows [[1, 0, 0, 0], [0, 0, 0, 1], [0, 0, 1, 0], [0, 1, 0, 0]]).Is cnotSwapped := by
    refine ⟨rfl, rfl, ?_⟩
    ext i j
    fin_cases i <;> fin_cases j <;> simp [Arr.toMatrix, Arr.ofRows, cnotSwapped]
  obtain ⟨w, ew, hw, -⟩ := new_gives hτ (by norm_num) (by norm_num) ha hm none none
  refine Does.pass (P := At4 τ 0 []) (Q := fun _ => True) ?_ (start4 rng)
  unfold entryCnotSwapped
  refine Does.bind (entry4_does (qs := [1, 0]) hτ ec hc hv hp rfl (by simp) (by simp)) ?_
  rintro _ rfl
  refine Does.bind (full4_does (m := 2) (qs := [1, 0]) hτ (by norm_num) rfl (by norm_num) rfl (by simp) hp embed_swapped hm)
    fun u hu => ?_
  refine Does.bind (Does.lift (F := fun x => x = w) ew rfl) ?_
  rintro _ rfl
  refine (Does.lift (a := ()) ?_ trivial).last
  rw [hu.close hτ hw (by norm_num) (by norm_num) (SamePhase.refl _), assertIs_ok]

end Tests

end Stoq
