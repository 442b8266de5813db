import Verif.Proofs.DriftRav
import Verif.Props.DriftCompile
import Verif.Props.DriftLibrary
import Verif.Props.Verification

/-!
# C63: verification sequences with the clean-up of small matrix entries and rounding

The arithmetic `τ` is arbitrary, with clean-up threshold and rounding errors up to `t`, gates are stored up to an error,
and the number of random gates and of steps is within the error budget of C56.
-/

namespace Stoq

open World Compiler Matrix Verification

variable {n : ℕ} {τ : Arith} {t ε : ℝ}

/-- What the code must do: no exception, the random gates of the specification, and unless that is to be skipped a run
of the specification towards the inverse of the ideal random circuit, with costs measured up to `E`.  The sequence
returned is new and holds the random gates followed by the gates of the run; its product is close to that of the ideal
gates. -/
def NearlyVerifies (n : ℕ) (τ : Arith) (t ε E : ℝ) (ideal : EntryVal → Gate) (random : PyM Rng (List EntryVal))
    (proposal : List EntryVal → PyM Rng (List EntryVal)) (threshold : Option ℝ) (skip : Prop) (m : ℤ) (K : ℕ) (w : World)
    (out : Except PyErr CompilerResult × World) : Prop :=
  ∃ R w' pre r1 gates undo b', out = (.ok R, w') ∧ random w.rng = (.ok pre, r1) ∧
    w.view R.sequence = none ∧ w'.view R.sequence = some ⟨2 ^ n, false, pre ++ gates, undo⟩ ∧
    (skip → gates = [] ∧ R.costByStep = [] ∧ w'.rng = r1) ∧
    (¬ skip → Metropolis.NearRun (Metropolis.idealCost n (gateProduct n (pre.map ideal))ᴴ ideal) E threshold 0.1
      (((2 : ℝ) ^ 2 ^ n) ^ 2) proposal m.toNat [] 0 r1 R.costByStep gates b' w'.rng) ∧
    (∀ v ∈ pre ++ gates, (ideal v).Ok n ∧ v.Realises (ideal v) ε) ∧
    ∃ p, (Seq.product τ R.sequence w').1 = .ok p ∧ p.Near (gateProduct n ((pre ++ gates).map ideal)) (driftErr n t ε K)

theorem nearlyVerifies_of {E : ℝ} {G G' : EntryVal → Prop} {ideal : EntryVal → Gate} {random : PyM Rng (List EntryVal)}
    {prop : List EntryVal → PyM Rng (List EntryVal)} {D : ℕ} {threshold : Option ℝ} {skip : Prop}
    {m : ℤ} {T : Prop} {w : World} {K : ℕ} {pre : List EntryVal} {r1 : Rng}
    {out : Except PyErr CompilerResult × World} (hb : Budget n τ t ε K) (hr : random w.rng = (.ok pre, r1))
    (hp : RavPost τ G G' random prop 0.1 (((2 : ℝ) ^ 2 ^ n) ^ 2) D threshold skip m T w out.1 out.2)
    (hn : RavNear n t ε E ideal prop 0.1 (((2 : ℝ) ^ 2 ^ n) ^ 2) threshold skip m K pre r1 out.1 out.2) :
    NearlyVerifies n τ t ε E ideal random prop threshold skip m K w out := by
  obtain ⟨R, o', gates, b', h1, h2, h3, h4, h5, h6⟩ := hn
  obtain ⟨_, _, o2, -, e2, e3, -, e5, -⟩ := hp.ok R h1
  rw [h2] at e3; cases e3
  refine ⟨R, out.2, pre, r1, gates, o'.previousEntries.map (valsOf out.2.entries), b', Prod.ext h1 rfl, hr, ?_,
    view_eq_some.mpr ⟨o', h2, by rw [viewOf, e5, DriftOk.dim h4, h3]⟩, h5, h6, fun v hv => ?_, ?_⟩
  · unfold World.view; rw [List.getElem?_eq_none e2]; rfl
  · rw [← h3] at hv
    refine ⟨h4.gok _ (List.mem_map.mpr ⟨v, hv, rfl⟩), ?_⟩
    have := h4.ents
    unfold RealisesAll at this
    rw [List.forall₂_map_right_iff, List.forall₂_same] at this
    exact this v hv
  · have hp := product_near h4 hb hp.safe.wf h2
    rw [Wp] at hp
    obtain ⟨_, p, -, h9, h10, -⟩ := hp
    rw [h3] at h10
    exact ⟨p, h9, h10⟩

theorem nearly_dimension {p : Primitive} (h : p.Nearly n t ε) : p.getDimension ≤ 2 ^ n := by
  obtain ⟨k, -, hk, hu, -⟩ := h
  unfold Primitive.getDimension
  have hle : 2 ^ k ≤ 2 ^ n := Nat.pow_le_pow_right (by norm_num) hk
  rcases hp : p.unitary with u | pu
  · rw [hp] at hu
    obtain ⟨V, -, hV⟩ := hu
    simp only
    rw [hV.dim]; exact hle
  · rw [hp] at hu
    simp only
    rw [hu.1]; exact hle

theorem Budget.drawOk {k : ℕ} (hb : Budget n τ t ε (k + 1)) (hle : 3 * 2 ^ n * t ≤ ε) : DrawOk n τ t ε :=
  ⟨hb.tau, hle, le_trans (by have h2 := two_pow_tau_nonneg n hb.t0; unfold stepErr; nlinarith) hb.step⟩

/-! ## C63 -/

/-- C63: with clean-up and rounding, `generate_rav_sequence` does not raise an exception as long as random gates and
steps are within the budget, and does what the specification says, with costs measured up to an error. -/
theorem C63_rav {c : Client} {Cs : List Compiler} (hs : Session τ c Cs) (hle : 3 * 2 ^ n * t ≤ ε)
    {prims : List Primitive} {arr : Bool} (hprims : ∀ q ∈ prims, q.Nearly n t ε) (hne : prims ≠ [])
    (harr : ¬ (arr = true ∧ prims.length > 1)) {L : ℤ} (hL : 0 ≤ L) {x : ℝ} (hx : 0 ≤ x ∧ x ≤ 1) {p : ℝ}
    (hp : 0 ≤ p ∧ p ≤ 1) {probs : Option (List ℝ)} (hch : ChoiceOk prims probs) (m : ℤ) {K : ℕ} (hLK : L.toNat ≤ K)
    (hmK : m.toNat ≤ K) (hbud : Budget n τ t ε (2 * (K + 1))) {ideal : EntryVal → Gate} (hi : IdealFor τ n prims ε ideal) :
    NearlyVerifies n τ t ε (costErr n t ε (driftErr n t ε (L.toNat + 1)) K) ideal
      (Rav.blocks (Metropolis.one (createRandomEntryVal τ (2 ^ n) prims probs)) L.toNat)
      ((ravCompiler (2 ^ n) prims arr probs p 0).proposal τ) (some x) (x = 0 ∨ m = 0) m (2 * (K + 1)) c.world
      (generateRavSequence τ (2 ^ n) prims arr L (some x) p probs m c.world) := by
  have hd := Budget.drawOk (k := 2 * K + 1) hbud hle
  have hdim : ∀ q ∈ prims, q.getDimension ≤ 2 ^ n := fun q hq => nearly_dimension (hprims q hq)
  have hU : CompilerUsable (2 ^ n) prims arr := ⟨⟨by positivity, hdim⟩, hne, harr⟩
  have hf : ∀ r, ∃ vs r', Metropolis.one (createRandomEntryVal τ (2 ^ n) prims probs) r = (.ok vs, r') := by
    intro r
    obtain ⟨v, r', h⟩ := createRandomEntryVal_near hd hch hprims r
    exact ⟨[v], r', Metropolis.one_ok_iff.mpr ⟨v, h, rfl⟩⟩
  obtain ⟨pre, r1, hpre⟩ := Rav.blocks_valid hf L.toNat c.world.rng
  rw [rav_eq, checked_ok _ hdim hL hx]
  have hpost := rav_post (2 ^ n) prims arr L.toNat x p probs m hs.ok.1.wf
  have hnear := ravWith_near (fill_blocks (τ := τ) (mk_one (τ := τ) (D := 2 ^ n) (prims := prims) (probs := probs)
      (G := Generated τ (2 ^ n) prims probs) fun r _ r' h => ⟨r, r', h⟩) L.toNat)
    (fillNear_blocks (mk_one (G := Generated τ (2 ^ n) prims probs) fun r _ r' h => ⟨r, r', h⟩)
      (fun v hv => hi.generated hv) L.toNat) (newCompile_ok τ (2 ^ n) prims arr probs p (some x) m) hU
    (newCompile_near hd hprims hch hp hU hi (some x) m hmK (hbud.mono (by omega))) rfl (x = 0 ∨ m = 0) hs.ok.1.wf hpre
    (Rav.blocks_one hpre).1.le hLK hbud
  rw [Wp] at hpost hnear
  exact nearlyVerifies_of hbud hpre hpost hnear

/-- C63 for `generate_layered_rav_sequence`: a layer counts as many operations as it has gates. -/
theorem C63_layered {c : Client} {Cs : List Compiler} (hs : Session τ c Cs) (hle : 3 * 2 ^ n * t ≤ ε)
    {counts : List (Primitive × ℤ)} (hprims : ∀ pc ∈ counts, pc.1.Nearly n t ε)
    (hus : ∀ pc ∈ counts, 0 < pc.2 → pc.1.allowedApplyTo ≠ some []) {L : ℤ} (hL : 0 ≤ L) {x : ℝ} (hx : 0 ≤ x ∧ x ≤ 1)
    {p : ℝ} (hp : 0 ≤ p ∧ p ≤ 1) (m : ℤ) {K : ℕ} (hLK : (counts.map fun pc => pc.2.toNat).sum * L.toNat ≤ K)
    (hmK : (counts.map fun pc => pc.2.toNat).sum * m.toNat ≤ K) (hbud : Budget n τ t ε (2 * (K + 1)))
    {ideal : EntryVal → Gate} (hi : IdealFor τ n (counts.map Prod.fst) ε ideal) :
    NearlyVerifies n τ t ε
      (costErr n t ε (driftErr n t ε ((counts.map fun pc => pc.2.toNat).sum * L.toNat + 1)) K) ideal
      (Rav.blocks (Metropolis.layer (fun q => createRandomEntryVal τ (2 ^ n) [q] none) counts) L.toNat)
      ((ravCompiler (2 ^ n) (counts.map (·.1)) false none p 0).layeredProposal τ counts) (some x) (x = 0 ∨ m = 0) m
      (2 * (K + 1)) c.world (generateLayeredRavSequence τ (2 ^ n) counts L (some x) p m c.world) := by
  have hd := Budget.drawOk (k := 2 * K + 1) hbud hle
  have hdim : ∀ pc ∈ counts, pc.1.getDimension ≤ 2 ^ n := fun q hq => nearly_dimension (hprims q hq)
  have hU : 0 < 2 ^ n ∧ ∀ pc ∈ counts, pc.1.getDimension ≤ 2 ^ n := ⟨by positivity, hdim⟩
  obtain ⟨pre, r1, hpre⟩ := Rav.blocks_valid (layer_near hd hprims hus) L.toNat c.world.rng
  have hlen : pre.length ≤ (counts.map fun pc => pc.2.toNat).sum * L.toNat := by
    obtain ⟨bs, rfl, h1, h2⟩ := Rav.blocks_ok hpre
    rw [← h1, List.length_flatten]
    refine (List.sum_le_card_nsmul _ (counts.map fun pc => pc.2.toNat).sum ?_).trans ?_
    · intro x hx
      obtain ⟨b, hb, rfl⟩ := List.mem_map.mp hx
      obtain ⟨r1, r2, h⟩ := h2 b hb
      exact (layer_isLayer h).length.le
    · rw [List.length_map, smul_eq_mul, mul_comm]
  rw [layeredRav_eq, checked_ok _ hdim hL hx]
  have hpost := layeredRav_post (2 ^ n) counts L.toNat x p m hs.ok.1.wf
  have hmk := mk_layer (τ := τ) (D := 2 ^ n) (counts := counts) (G := GeneratedLayer τ (2 ^ n) counts)
    fun pc hpc r _ r' h => ⟨pc, hpc, r, r', h⟩
  have hnear := ravWith_near (fill_blocks (τ := τ) hmk L.toNat)
    (fillNear_blocks hmk (fun v hv => hi.generatedLayer hv) L.toNat) (newCompileLayered_ok τ (2 ^ n) counts p (some x) m) hU
    (newCompileLayered_near hd hprims hus hp hU hi (some x) m hmK (hbud.mono (by omega))) rfl (x = 0 ∨ m = 0) hs.ok.1.wf
    hpre hlen hLK hbud
  rw [Wp] at hpost hnear
  exact nearlyVerifies_of hbud hpre hpost hnear

theorem gateProduct_append' (l l' : List Gate) : gateProduct n (l ++ l') = gateProduct n l' * gateProduct n l := by
  induction l with
  | nil => simp [gateProduct]
  | cons g l ih => rw [List.cons_append, gateProduct, gateProduct, ih, Matrix.mul_assoc]

/-- C63: the distance guarantee with error.  The ideal whole sequence is as far from the identity as the ideal compiled
gates are from the inverse of the ideal random ones: up to `E` the last recorded cost, and at most `1 - x + E` if
compilation stopped before the budget of steps was used up. -/
theorem C63_distance {E : ℝ} {ideal : EntryVal → Gate} {random : PyM Rng (List EntryVal)}
    {prop : List EntryVal → PyM Rng (List EntryVal)} {x : ℝ} {skip : Prop} {m : ℤ} {K : ℕ} {w w' : World}
    {R : CompilerResult} (h : NearlyVerifies n τ t ε E ideal random prop (some x) skip m K w (.ok R, w')) (hsk : ¬ skip) :
    ∃ gates undo, w'.view R.sequence = some ⟨2 ^ n, false, gates, undo⟩ ∧
      (∀ z, R.costByStep.getLast? = some z → |z - (1 - overlap 1 (gateProduct n (gates.map ideal)))| ≤ E) ∧
      ((R.costByStep.length : ℤ) < m → 1 - overlap 1 (gateProduct n (gates.map ideal)) ≤ 1 - x + E) := by
  obtain ⟨_, _, pre, r1, gates, undo, b', ⟨⟩, -, -, h1, -, h2, -⟩ := h
  have hd : 1 - overlap 1 (gateProduct n ((pre ++ gates).map ideal)) =
      Metropolis.idealCost n (gateProduct n (pre.map ideal))ᴴ ideal gates := by
    unfold Metropolis.idealCost overlap
    rw [List.map_append, gateProduct_append', conjTranspose_one, one_mul, conjTranspose_conjTranspose,
      Matrix.trace_mul_comm]
  refine ⟨_, undo, h1, fun z hz => ?_, fun hlt => ?_⟩
  · rw [hd]; exact C61_last_cost (h2 hsk) hz
  · rw [hd]; exact (C61_early_end (h2 hsk) (by omega)).1 x rfl

/-! ## Cases that meet the hypotheses -/

/-- Ten random gates and at most ten steps at the code's threshold, for all random outcomes. -/
example (rng : Rng) : ∃ ideal, IdealFor (.exact codeTau) 1 [zPrim] 6e-12 ideal ∧
    NearlyVerifies 1 (.exact codeTau) codeTau 6e-12 (costErr 1 codeTau 6e-12 (driftErr 1 codeTau 6e-12 11) 10) ideal
      (Rav.blocks (Metropolis.one (createRandomEntryVal (.exact codeTau) 2 [zPrim] none)) 10)
      ((ravCompiler 2 [zPrim] false none (1 / 2) 0).proposal (.exact codeTau)) (some (9 / 10)) (((9 : ℝ) / 10) = 0 ∨ (10 : ℤ) = 0) 10 22
      (zClient rng).world (generateRavSequence (.exact codeTau) 2 [zPrim] false 10 (some (9 / 10)) (1 / 2) none 10 (zClient rng).world) := by
  have hn : ∀ p ∈ [zPrim], p.Nearly 1 codeTau 6e-12 := fun p hp => by
    obtain rfl := List.mem_singleton.mp hp
    exact (zPrim_valid le_rfl).nearly ⟨code_accurate, by unfold codeTau; norm_num, by
      unfold driftLimit; norm_num⟩
  obtain ⟨ideal, hi⟩ := C61_ideal_gates (t := codeTau) (n := 1) (ε := 6e-12) code_accurate
    (by unfold codeTau; norm_num) (by unfold driftLimit; norm_num) hn
  exact ⟨ideal, hi, C63_rav (zSession (.exact codeTau) rng (1 / 2) 1) (n := 1) (by unfold codeTau; norm_num) hn (by simp) (by simp)
    (by norm_num) ⟨by norm_num, by norm_num⟩ ⟨by norm_num, by norm_num⟩ zPrims_choice 10 (K := 10) (by norm_num)
    (by norm_num) (zBudget _ (by norm_num)) hi⟩

/-- Three layers of two gates and at most five steps. -/
example (rng : Rng) : ∃ ideal, IdealFor (.exact codeTau) 1 [zPrim] 6e-12 ideal ∧
    NearlyVerifies 1 (.exact codeTau) codeTau 6e-12 (costErr 1 codeTau 6e-12 (driftErr 1 codeTau 6e-12 7) 10) ideal
      (Rav.blocks (Metropolis.layer (fun q => createRandomEntryVal (.exact codeTau) 2 [q] none) [(zPrim, 2)]) 3)
      ((ravCompiler 2 [zPrim] false none (1 / 2) 0).layeredProposal (.exact codeTau) [(zPrim, 2)]) (some (9 / 10))
      (((9 : ℝ) / 10) = 0 ∨ (5 : ℤ) = 0) 5 22
      (zClient rng).world (generateLayeredRavSequence (.exact codeTau) 2 [(zPrim, 2)] 3 (some (9 / 10)) (1 / 2) 5 (zClient rng).world) := by
  have hn : ∀ p ∈ [zPrim], p.Nearly 1 codeTau 6e-12 := fun p hp => by
    obtain rfl := List.mem_singleton.mp hp
    exact (zPrim_valid le_rfl).nearly ⟨code_accurate, by unfold codeTau; norm_num, by
      unfold driftLimit; norm_num⟩
  obtain ⟨ideal, hi⟩ := C61_ideal_gates (t := codeTau) (n := 1) (ε := 6e-12) code_accurate
    (by unfold codeTau; norm_num) (by unfold driftLimit; norm_num) hn
  exact ⟨ideal, hi, C63_layered (zSession (.exact codeTau) rng (1 / 2) 1) (n := 1) (by unfold codeTau; norm_num)
    (counts := [(zPrim, 2)])
    (by intro pc hpc; obtain rfl := List.mem_singleton.mp hpc; exact hn _ (by simp))
    (by intro pc hpc _; obtain rfl := List.mem_singleton.mp hpc; simp [zPrim]) (L := 3)
    (by norm_num) ⟨by norm_num, by norm_num⟩ ⟨by norm_num, by norm_num⟩ 5 (K := 10)
    (by simp) (by simp) (zBudget _ (by norm_num)) hi⟩

end Stoq
