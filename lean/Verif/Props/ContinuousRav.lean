import Verif.Props.Continuous
import Verif.Props.RavSucceeds

/-!
# C78: verification sequences with gates that have parameters come back

C70 is about gates without parameters.  Here the gates may depend continuously on parameters.  As in C70, nothing has to
be assumed about the gates: what gates have done can be undone by more of the same gates up to any distance.
-/

namespace Stoq

open MeasureTheory World Compiler Matrix Verification

namespace Rav

variable {B n L : ℕ} {fresh : PyM Rng (List EntryVal)}

theorem blocks_total (h : Rng.Total B fresh) (k : ℕ) : Rng.Total B (blocks fresh k) := by
  induction k with
  | zero => exact Rng.Total.pure _
  | succ k ih => exact h.bind fun b _ => ih.bind fun rest _ => Rng.Total.pure _

theorem blocks_layered {k : ℕ} {pre : List EntryVal} (h : Rng.Result (blocks fresh k) pre) :
    Metropolis.Layered {l | Rng.Result fresh l} pre := by
  induction k generalizing pre with
  | zero => rw [Rng.result_pure h]; exact .nil
  | succ k ih =>
    obtain ⟨b, hb, h⟩ := Rng.result_bind h
    obtain ⟨rest, hrest, h⟩ := Rng.result_bind h
    rw [Rng.result_pure h]
    exact (Metropolis.Layered.single hb).append (ih hrest)

/-- A random circuit is followed by gates that undo it, if the walk does so with the same probability for every random
circuit. -/
theorem plan_wins {random : PyM Rng (List EntryVal)} {proposal : List EntryVal → PyM Rng (List EntryVal)}
    {rate cap t x : ℝ} {skip : Prop} {m : ℕ} (hr : Rng.Total B random) (h0 : 0 ≤ x) (h1 : x ≤ 1)
    (hskip : skip → t ≤ 0 ∨ x = 0)
    (hw : ∀ pre, Rng.Result random pre → Metropolis.Wins B n (circuit n pre)ᴴ (some t) rate cap proposal m ⟨[], 0⟩ x) :
    ENNReal.ofReal x ≤ Rng.tapes B (Rng.after (plan n random proposal rate cap (some t) skip m) fun a =>
      {_t | t ≤ overlap 1 (circuit n (a.1 ++ final a.2))}) := by
  classical
  have key := hr.use (S := fun pre => Rng.after (if skip then pure (pre, []) else do
      let walk ← Metropolis.run n (circuit n pre)ᴴ (some t) rate cap proposal m ⟨[], 0⟩
      return (pre, walk)) fun a => {_t | t ≤ overlap 1 (circuit n (a.1 ++ final a.2))}) h0 h1 fun pre hpre => ?_
  · refine key.trans (measure_mono fun t' ht' r hr' => ?_)
    obtain ⟨pre, r1, e1, e2⟩ := ht' r hr'
    obtain ⟨a, r2, e3, e4⟩ := e2 r1 rfl
    refine ⟨a, r2, ?_, e4⟩
    unfold plan
    rw [PyM.bind_of_ok e1, ← e3, Int.toNat_natCast]
  · by_cases hs : skip
    · rcases hskip hs with ht | hx
      · have : Rng.after (if skip then pure (pre, []) else do
            let walk ← Metropolis.run n (circuit n pre)ᴴ (some t) rate cap proposal m ⟨[], 0⟩
            return (pre, walk)) (fun a => {_t | t ≤ overlap 1 (circuit n (a.1 ++ final a.2))}) = Set.univ := by
          refine Set.eq_univ_of_forall fun t' r _ => ⟨(pre, []), r, by rw [if_pos hs]; rfl, ?_⟩
          exact ht.trans (overlap_nonneg _ _)
        rw [this, measure_univ]
        exact ENNReal.ofReal_le_one.mpr h1
      · rw [hx, ENNReal.ofReal_zero]; exact zero_le
    · refine (hw pre hpre).prob.trans (measure_mono fun t' ht' r hr' => ?_)
      obtain ⟨walk, r', e1, e2⟩ := ht' r hr'
      refine ⟨(pre, walk), r', by rw [if_neg hs, PyM.bind_of_ok e1]; rfl, ?_⟩
      have e : (walk.map Metropolis.State.gates).getLast?.getD [] = final walk := by
        rw [List.getLast?_map, final]
        cases walk.getLast? <;> rfl
      have e2 : 1 - overlap (circuit n pre)ᴴ (circuit n ((walk.map Metropolis.State.gates).getLast?.getD [])) ≤ 1 - t := e2
      rw [e] at e2
      change t ≤ overlap 1 (circuit n (pre ++ final walk))
      rw [Rav.overlap_whole]
      linarith

end Rav

namespace Metropolis

/-- The inverse of every circuit of layers is reached with a probability that tends to one exponentially. -/
theorem wins_undo {B n L : ℕ} {fresh : PyM Rng (List EntryVal)} {cap p t : ℝ} (hf : Source B n L fresh) (hcap : 0 ≤ cap)
    (hp0 : 0 < p) (hp1 : p ≤ 1) (ht : t < 1) :
    ∃ (δ : ℝ) (K : ℕ), 0 < δ ∧ δ ≤ 1 ∧ 0 < K ∧ ∀ pre, Layered {l | Rng.Result fresh l} pre →
      ∀ rate, 0 ≤ rate → ∀ m st, Reachable {l | Rng.Result fresh l} st →
        Wins B n (circuit n pre)ᴴ (some t) rate cap (propose p fresh L) m st (1 - (1 - δ) ^ (m / K)) := by
  obtain ⟨Ws, hW1, hW2⟩ := exists_undo hf.layers (t := (1 + t) / 2) (by linarith)
  obtain ⟨ε, hε, hε2⟩ := exists_tolerance hf.layers hW1 (x := 3 * (1 - t) / 4) (y := 1 - t) (by linarith)
  obtain ⟨δ, K, h1, h2, h3, h4⟩ := wins_of_words (cap := cap) hf hcap hp0 hp1 hW1 hε
  refine ⟨δ, K, h1, h2, h3, fun pre hpre => ?_⟩
  have hT : (circuit n pre)ᴴ ∈ unitaryGroup (Fin (2 ^ n)) ℂ := Unitary.star_mem (hpre.unitary hf.layers)
  refine h4 _ (some t) hT fun g hg => ?_
  obtain ⟨ws, hws, hgood⟩ := hW2 pre hpre g hg
  refine ⟨ws, hws, fun ls hls hr => ?_⟩
  have hgood : cost n (circuit n pre)ᴴ (g ++ ws.flatten) ≤ 1 - (1 + t) / 2 := hgood
  exact (hε2 _ g ws hT hws hg (by linarith) ls hls hr).2.le

end Metropolis

theorem comesBack_of_wins {B n : ℕ} {random : PyM Rng (List EntryVal)}
    {prop : List EntryVal → PyM Rng (List EntryVal)} {rate cap t δ : ℝ} {skip : Prop} {m q : ℕ} {w : World}
    {M : PyM World CompilerResult} (hr : Rng.Total B random) (hδ0 : 0 < δ) (hδ : δ ≤ 1) (hskip : skip → t ≤ 0 ∨ q = 0)
    (h : ∀ t', FollowsPlan n (Rav.plan n random prop rate cap (some t) skip m) (w.reseed t') (M (w.reseed t')))
    (hw : ∀ pre, Rng.Result random pre →
      Metropolis.Wins B n (circuit n pre)ᴴ (some t) rate cap prop m ⟨[], 0⟩ (1 - (1 - δ) ^ q)) :
    1 - ENNReal.ofReal ((1 - δ) ^ q) ≤ Rng.tapes B {t' | ComesBack n t (M (w.reseed t'))} := by
  have h0 : 0 ≤ (1 - δ) ^ q := pow_nonneg (by linarith) _
  rw [← ENNReal.ofReal_one, ← ENNReal.ofReal_sub _ h0]
  refine (Rav.plan_wins (skip := skip) hr (by linarith [pow_le_one₀ (n := q) (show 0 ≤ 1 - δ by linarith) (by linarith)])
    (by linarith) (fun hs => (hskip hs).imp id fun hq => by rw [hq, pow_zero, sub_self]) hw).trans
    (measure_mono fun t' ht => ?_)
  obtain ⟨⟨pre, walk⟩, r', e1, e2⟩ := ht (Rng.start t') (Rng.rest_start t')
  have hf := h t'
  unfold FollowsPlan at hf
  rw [show (w.reseed t').rng = Rng.start t' from rfl, e1] at hf
  obtain ⟨-, R, hR, -, ⟨undo, hv⟩, -⟩ := hf
  exact ⟨_, _, ⟨R, hR, rfl, _, hv, rfl⟩, e2⟩

/-- C78: for every `t < 1` the probability that `generate_rav_sequence` with a limit of `m` steps returns a sequence
whose product has at least the overlap `t` with the identity is at least `1 - (1 - δ) ^ ⌊m / K⌋`, with a positive `δ`.
The gates may be fixed or depend continuously on parameters, and their weights may be any.  The numbers `δ` and `K` do
not depend on the length of the random part or the history of the session. -/
theorem C78_rav_succeeds {n : ℕ} {prims : List Primitive} {probs : Option (List ℝ)} {p : ℝ}
    (hprims : ∀ q ∈ prims, q.Valid n) (hcont : ∀ q ∈ prims, q.Continuous) (hch : ChoiceOk prims probs)
    (hp : 0 < p ∧ p ≤ 1) {t : ℝ} (ht : 0 ≤ t ∧ t < 1) {B : ℕ} (hB : n ≤ B) (hB1 : prims.length ≤ B)
    (hB2 : ∀ q ∈ prims, ∀ lists, q.allowedApplyTo = some lists → lists.length ≤ B) :
    ∃ (δ : ℝ) (K : ℕ), 0 < δ ∧ δ ≤ 1 ∧ 0 < K ∧ ∀ {c : Client} {Cs : List Compiler}, Session 0 c Cs →
      (∀ x ∈ c.world.entries, x.toVal.Exact) → ∀ {arr : Bool}, ¬ (arr = true ∧ prims.length > 1) →
      ∀ {L : ℤ}, 0 ≤ L → ∀ m : ℕ,
        1 - ENNReal.ofReal ((1 - δ) ^ (m / K)) ≤ Rng.tapes B {t' | ComesBack n t
          (generateRavSequence 0 (2 ^ n) prims arr L (some t) p probs m (c.world.reseed t'))} := by
  have hf := Metropolis.one_source hch hprims hcont hB hB1 hB2
  obtain ⟨δ, K, h1, h2, h3, h4⟩ := Metropolis.wins_undo (cap := ((2 : ℝ) ^ 2 ^ n) ^ 2) hf (by positivity) hp.1 hp.2 ht.2
  refine ⟨δ, K, h1, h2, h3, ?_⟩
  intro c Cs hs hex arr harr L hL m
  have hne : prims ≠ [] := by
    rintro rfl
    cases probs with
    | none => simp [ChoiceOk] at hch
    | some ps =>
      have := hch.sum_pos
      have h0 : ps.length = 0 := hch.len
      rw [List.length_eq_zero_iff.mp h0] at this
      simp at this
  refine comesBack_of_wins (m := m) (random := Rav.blocks (Metropolis.one (createRandomEntryVal 0 (2 ^ n) prims probs)) L.toNat)
    (prop := (ravCompiler (2 ^ n) prims arr probs p 0).proposal 0) (skip := t = 0 ∨ (m : ℤ) = 0) (rate := 0.1)
    (cap := ((2 : ℝ) ^ 2 ^ n) ^ 2) (Rav.blocks_total hf.total _) h1 h2 ?_ (fun t' => ?_) fun pre hpre => ?_
  · rintro (h | h)
    · exact .inl h.le
    · right
      rw [show m = 0 by exact_mod_cast h, Nat.zero_div]
  · rw [rav_eq, checked_ok _ (fun q hq => valid_dimension (hprims q hq)) hL ⟨ht.1, ht.2.le⟩]
    have hp := rav_post (2 ^ n) prims arr L.toNat t p probs m (hs.ok.1.wf.reseed t')
    rw [Wp] at hp
    exact plan_of_post rfl hex (fun v hv => generated_good hprims hv) (fun v hv => generated_good hprims hv)
      ⟨⟨by positivity, fun q hq => valid_dimension (hprims q hq)⟩, hne, harr⟩ hp
  · exact h4 pre (Rav.blocks_layered hpre) 0.1 (by norm_num) m _ ⟨.nil, le_rfl⟩

/-- C78: the same for `generate_layered_rav_sequence`. -/
theorem C78_layeredRav_succeeds {n : ℕ} {counts : List (Primitive × ℤ)} {p : ℝ}
    (hprims : ∀ pc ∈ counts, pc.1.Valid n) (hcounts : ∀ pc ∈ counts, 0 ≤ pc.2)
    (hcont : ∀ pc ∈ counts, 0 < pc.2 → pc.1.allowedApplyTo ≠ some [] ∧ pc.1.Continuous) (hp : 0 < p ∧ p ≤ 1)
    {t : ℝ} (ht : 0 ≤ t ∧ t < 1) {B : ℕ} (hB : n ≤ B) (hB1 : 1 ≤ B)
    (hB2 : ∀ pc ∈ counts, ∀ lists, pc.1.allowedApplyTo = some lists → lists.length ≤ B)
    (hB3 : (counts.map fun pc => pc.2.toNat).sum ≤ B) :
    ∃ (δ : ℝ) (K : ℕ), 0 < δ ∧ δ ≤ 1 ∧ 0 < K ∧ ∀ {c : Client} {Cs : List Compiler}, Session 0 c Cs →
      (∀ x ∈ c.world.entries, x.toVal.Exact) → ∀ {L : ℤ}, 0 ≤ L → ∀ m : ℕ,
        1 - ENNReal.ofReal ((1 - δ) ^ (m / K)) ≤ Rng.tapes B {t' | ComesBack n t
          (generateLayeredRavSequence 0 (2 ^ n) counts L (some t) p m (c.world.reseed t'))} := by
  have hf := Metropolis.layer_source hprims hcounts hcont hB hB1 hB2 hB3
  obtain ⟨δ, K, h1, h2, h3, h4⟩ := Metropolis.wins_undo (cap := ((2 : ℝ) ^ 2 ^ n) ^ 2) hf (by positivity) hp.1 hp.2 ht.2
  refine ⟨δ, K, h1, h2, h3, ?_⟩
  intro c Cs hs hex L hL m
  refine comesBack_of_wins (m := m) (random := Rav.blocks
    (Metropolis.layer (fun q => createRandomEntryVal 0 (2 ^ n) [q] none) counts) L.toNat)
    (prop := (ravCompiler (2 ^ n) (counts.map (·.1)) false none p 0).layeredProposal 0 counts)
    (skip := t = 0 ∨ (m : ℤ) = 0) (rate := 0.1)
    (cap := ((2 : ℝ) ^ 2 ^ n) ^ 2) (Rav.blocks_total hf.total _) h1 h2 ?_ (fun t' => ?_) fun pre hpre => ?_
  · rintro (h | h)
    · exact .inl h.le
    · right
      rw [show m = 0 by exact_mod_cast h, Nat.zero_div]
  · rw [layeredRav_eq, checked_ok _ (fun q hq => valid_dimension (hprims q hq)) hL ⟨ht.1, ht.2.le⟩]
    have hp := layeredRav_post (2 ^ n) counts L.toNat t p m (hs.ok.1.wf.reseed t')
    rw [Wp] at hp
    exact plan_of_post rfl hex (fun v hv => generatedLayer_good hprims hv) (fun v hv => generatedLayer_good hprims hv)
      ⟨by positivity, fun q hq => valid_dimension (hprims q hq)⟩ hp
  · exact h4 pre (Rav.blocks_layered hpre) 0.1 (by norm_num) m _ ⟨.nil, le_rfl⟩

/-- C78: verification sequences of the gates of the examples, on any number of qubits from two and of any length, come
back up to any threshold below 1 with a probability that tends to one exponentially. -/
theorem C78_native_rav {n : ℕ} (hn : 2 ≤ n) {xy ms : ParamUnitary} (hxy : ParamDefinitions.rotationXY 0 = .ok xy)
    (hms : ParamDefinitions.xx 0 = .ok ms) {p : ℝ} (hp : 0 < p ∧ p ≤ 1) {t : ℝ} (ht : 0 ≤ t ∧ t < 1) {B : ℕ}
    (hB : n ≤ B) :
    ∃ (δ : ℝ) (K : ℕ), 0 < δ ∧ δ ≤ 1 ∧ 0 < K ∧ ∀ {c : Client} {Cs : List Compiler}, Session 0 c Cs →
      (∀ x ∈ c.world.entries, x.toVal.Exact) → ∀ {L : ℤ}, 0 ≤ L → ∀ m : ℕ,
        1 - ENNReal.ofReal ((1 - δ) ^ (m / K)) ≤ Rng.tapes B {t' | ComesBack n t (generateRavSequence 0 (2 ^ n)
          [⟨.inr xy, none⟩, ⟨.inr ms, none⟩] false L (some t) p none m (c.world.reseed t'))} := by
  obtain ⟨δ, K, h1, h2, h3, h4⟩ := C78_rav_succeeds (native_valid hn hxy hms) (native_continuous hxy hms) (probs := none)
    (by simp [ChoiceOk, usable]) hp ht hB (by simpa using hn.trans hB) (by
      intro q hq lists hl
      simp only [List.mem_cons, List.not_mem_nil, or_false] at hq
      rcases hq with rfl | rfl <;> cases hl)
  exact ⟨δ, K, h1, h2, h3, fun hs hex _ hL m => h4 hs hex (by simp) hL m⟩

/-- C78: the same in layers with positive numbers of the two gates. -/
theorem C78_native_layered_rav {n : ℕ} (hn : 2 ≤ n) {xy ms : ParamUnitary} (hxy : ParamDefinitions.rotationXY 0 = .ok xy)
    (hms : ParamDefinitions.xx 0 = .ok ms) (a b : ℕ) {p : ℝ} (hp : 0 < p ∧ p ≤ 1) {t : ℝ} (ht : 0 ≤ t ∧ t < 1) {B : ℕ}
    (hB : n ≤ B) (hB1 : a + b ≤ B) :
    ∃ (δ : ℝ) (K : ℕ), 0 < δ ∧ δ ≤ 1 ∧ 0 < K ∧ ∀ {c : Client} {Cs : List Compiler}, Session 0 c Cs →
      (∀ x ∈ c.world.entries, x.toVal.Exact) → ∀ {L : ℤ}, 0 ≤ L → ∀ m : ℕ,
        1 - ENNReal.ofReal ((1 - δ) ^ (m / K)) ≤ Rng.tapes B {t' | ComesBack n t (generateLayeredRavSequence 0 (2 ^ n)
          [(⟨.inr xy, none⟩, (a : ℤ)), (⟨.inr ms, none⟩, (b : ℤ))] L (some t) p m (c.world.reseed t'))} := by
  have hall : ∀ {Q : Primitive × ℤ → Prop}, Q (⟨.inr xy, none⟩, (a : ℤ)) → Q (⟨.inr ms, none⟩, (b : ℤ)) →
      ∀ pc ∈ ([(⟨.inr xy, none⟩, (a : ℤ)), (⟨.inr ms, none⟩, (b : ℤ))] : List (Primitive × ℤ)), Q pc := by
    intro Q h1 h2 pc hpc
    simp only [List.mem_cons, List.not_mem_nil, or_false] at hpc
    rcases hpc with rfl | rfl
    · exact h1
    · exact h2
  exact C78_layeredRav_succeeds (hall (rotationXY_valid (by omega) hxy) (xx_valid hn hms))
    (hall (Q := fun pc => 0 ≤ pc.2) (by simp) (by simp))
    (hall (Q := fun pc => 0 < pc.2 → pc.1.allowedApplyTo ≠ some [] ∧ pc.1.Continuous)
      (fun _ => ⟨by simp, rotationXY_continuous hxy⟩) fun _ => ⟨by simp, xx_continuous hms⟩) hp ht hB (by omega)
    (hall (Q := fun pc => ∀ lists, pc.1.allowedApplyTo = some lists → lists.length ≤ B) (by simp) (by simp)) (by simpa using hB1)

/-! ## Example -/

/-- C78: on three qubits, random circuits of any length of the gates of the examples are undone up to an overlap of 0.999
with probability at least 0.99, if enough steps are allowed; the number of steps does not depend on the length. -/
example (rng : Rng) : ∃ (xy ms : ParamUnitary) (m0 : ℕ), ParamDefinitions.rotationXY 0 = .ok xy ∧
    ParamDefinitions.xx 0 = .ok ms ∧ ∀ L m : ℕ, m0 ≤ m →
      1 - ENNReal.ofReal (1 / 100) ≤ Rng.tapes 3 {t | ComesBack 3 (999 / 1000) (generateRavSequence 0 8
        [⟨.inr xy, none⟩, ⟨.inr ms, none⟩] false L (some (999 / 1000)) (1 / 2) none m
          ((Client.start rng).world.reseed t))} := by
  obtain ⟨⟨xy, hxy, -⟩, -, ⟨ms, hms, -⟩⟩ := C27_parameterized
  obtain ⟨δ, K, g1, g2, g3, g4⟩ := C78_native_rav (n := 3) (by norm_num) hxy hms (p := 1 / 2) (by norm_num)
    (t := 999 / 1000) (by norm_num) (B := 3) le_rfl
  obtain ⟨q, hq⟩ := exists_pow_lt_of_lt_one (show (0 : ℝ) < 1 / 100 by norm_num) (show 1 - δ < 1 by linarith)
  refine ⟨xy, ms, q * K, hxy, hms, fun L m hm => le_trans (tsub_le_tsub_left (ENNReal.ofReal_le_ofReal ?_) 1)
    (g4 (.start rng) (by simp [Client.start]) (Int.natCast_nonneg L) m)⟩
  exact le_trans (pow_le_pow_of_le_one (by linarith) (by linarith) ((Nat.le_div_iff_mul_le g3).mpr hm)) hq.le

end Stoq
