import Verif.Proofs.PhaseFlip
import Verif.Props.Gates
import Verif.Props.Continuous

/-!
# C96: the phase-flip code
-/

namespace Stoq

open Matrix Complex UnitaryDefinitions PhaseFlip Compiler

/-- C96: `qecc_phase_flip` takes a codeword with any phase flips to a product state; the first two qubits show which
flips there were, up to exchanging flipped and unflipped qubits, and the last qubit holds the encoded state if at most one
qubit was flipped, and the encoded state with `|0⟩` and `|1⟩` exchanged otherwise. -/
theorem C96_flips : ∃ u, qeccPhaseFlip 0 = .ok u ∧ ∃ w : ℂ, ‖w‖ = 1 ∧ ∀ (s : Fin 3 → Bool) (a b : ℂ),
    u.matrix.toMatrix (2 ^ 3) *ᵥ (flips s *ᵥ codeword a b) = w •
      if weight s ≤ 1 then stored (s 0 ^^ s 2) (s 1 ^^ s 2) a b else stored (s 0 ^^ s 2) (s 1 ^^ s 2) b a := by
  obtain ⟨u, h1, -, ⟨w, hw, h2⟩, -⟩ := C27_qecc
  refine ⟨u, h1, w, hw, fun s a b => ?_⟩
  have h2' : u.matrix.toMatrix (2 ^ 3) = w • Gate.phaseFlip := h2
  rw [h2', ← decode]
  exact Matrix.smul_mulVec w Gate.phaseFlip (flips s *ᵥ codeword a b)

/-- C96: every operator that is a combination of no flip and the three single flips, for example a small rotation of one
qubit about z, is corrected completely: the last qubit is in the encoded state and not entangled with the others. -/
theorem C96_coherent : ∃ u, qeccPhaseFlip 0 = .ok u ∧ ∃ w : ℂ, ‖w‖ = 1 ∧ ∀ (e : Option (Fin 3) → ℂ) (a b : ℂ),
    u.matrix.toMatrix (2 ^ 3) *ᵥ ((e none • 1 + ∑ k, e (some k) • embed 3 [k.val] Gate.Z) *ᵥ codeword a b) =
      w • (e none • stored false false a b + e (some 0) • stored true false a b + e (some 1) • stored false true a b +
        e (some 2) • stored true true a b) := by
  obtain ⟨u, h1, w, hw, h2⟩ := C96_flips
  refine ⟨u, h1, w, hw, fun e a b => ?_⟩
  have f0 : flips ![false, false, false] = 1 := by simp [flips]
  have f1 : flips ![true, false, false] = embed 3 [0] Gate.Z := by simp [flips]
  have f2 : flips ![false, true, false] = embed 3 [1] Gate.Z := by simp [flips]
  have f3 : flips ![false, false, true] = embed 3 [2] Gate.Z := by simp [flips]
  have g0 := h2 ![false, false, false] a b
  have g1 := h2 ![true, false, false] a b
  have g2 := h2 ![false, true, false] a b
  have g3 := h2 ![false, false, true] a b
  rw [f0, if_pos (by decide)] at g0
  rw [f1, if_pos (by decide)] at g1
  rw [f2, if_pos (by decide)] at g2
  rw [f3, if_pos (by decide)] at g3
  have hsum : (∑ k : Fin 3, e (some k) • embed 3 [k.val] Gate.Z) =
      e (some 0) • embed 3 [0] Gate.Z + e (some 1) • embed 3 [1] Gate.Z + e (some 2) • embed 3 [2] Gate.Z := by
    rw [Fin.sum_univ_three]; rfl
  rw [hsum, Matrix.add_mulVec, Matrix.add_mulVec, Matrix.add_mulVec, Matrix.smul_mulVec, Matrix.smul_mulVec,
    Matrix.smul_mulVec, Matrix.smul_mulVec, Matrix.mulVec_add, Matrix.mulVec_add, Matrix.mulVec_add,
    Matrix.mulVec_smul, Matrix.mulVec_smul, Matrix.mulVec_smul, Matrix.mulVec_smul, g0, g1, g2, g3]
  simp only [Matrix.cons_val_zero, Matrix.cons_val_one, Matrix.cons_val, Bool.xor_false, Bool.xor_true, Bool.not_false]
  module

/-- C96: if each qubit is flipped with probability `p`, independently of the others, the last qubit is found in the
encoded state with probability `1 - (3p² - 2p³)(1 - (2 Re(a* b))²)`. -/
theorem C96_rate {u : Unitary} (hu : qeccPhaseFlip 0 = .ok u) (p : ℝ) {a b : ℂ} (h : ‖a‖ ^ 2 + ‖b‖ ^ 2 = 1) :
    ∑ s, flipProb p s * fidelity a b (u.matrix.toMatrix (2 ^ 3) *ᵥ (flips s *ᵥ codeword a b)) =
      1 - (3 * p ^ 2 - 2 * p ^ 3) * (1 - (2 * (star a * b).re) ^ 2) := by
  obtain ⟨u', h1, w, hw, h2⟩ := C96_flips
  rw [hu] at h1
  cases h1
  have e : ∀ z : ℂ, star z * z = ((‖z‖ ^ 2 : ℝ) : ℂ) := fun z => by
    rw [mul_comm, Complex.star_def, Complex.mul_conj, Complex.normSq_eq_norm_sq]
  have hone : star a * a + star b * b = 1 := by rw [e, e, ← ofReal_add, h, ofReal_one]
  have hX : ‖star a * b + star b * a‖ ^ 2 = (2 * (star a * b).re) ^ 2 := by
    have : star a * b + star b * a = ((2 * (star a * b).re : ℝ) : ℂ) := by
      have : star b * a = star (star a * b) := by simp [mul_comm]
      rw [this, Complex.star_def, Complex.add_conj]
    rw [this, Complex.norm_real, Real.norm_eq_abs, sq_abs]
  have hf : ∀ s, fidelity a b (u.matrix.toMatrix (2 ^ 3) *ᵥ (flips s *ᵥ codeword a b)) =
      if weight s ≤ 1 then 1 else (2 * (star a * b).re) ^ 2 := by
    intro s
    rw [h2, fidelity_smul hw]
    split_ifs
    · rw [fidelity_stored, hone]; simp
    · rw [fidelity_stored, hX]
  simp only [hf]
  have key : ∀ f : (Fin 3 → Bool) → ℝ, ∑ s, f s = ∑ x : Bool, ∑ y : Bool, ∑ z : Bool, f ![x, y, z] := by
    intro f
    rw [← (Fin.consEquiv fun _ : Fin 3 => Bool).sum_comp, Fintype.sum_prod_type]
    refine Finset.sum_congr rfl fun x _ => ?_
    rw [← (Fin.consEquiv fun _ : Fin 2 => Bool).sum_comp, Fintype.sum_prod_type]
    refine Finset.sum_congr rfl fun y _ => ?_
    rw [← (Fin.consEquiv fun _ : Fin 1 => Bool).sum_comp, Fintype.sum_prod_type]
    refine Finset.sum_congr rfl fun z _ => ?_
    simp only [Finset.univ_unique, Finset.sum_singleton]
    congr 1
  rw [key]
  simp [flipProb, Fin.prod_univ_three, weight]
  ring

/-- C96: a circuit at the distance `c` from `qecc_phase_flip` corrects a single flip with a fidelity of at least
`(1 - 4c)²`. -/
theorem C96_near {u v : Unitary} (hu : qeccPhaseFlip 0 = .ok u) (hv : v.Exact (2 ^ 3)) {c : ℝ}
    (hc : u.distanceFrom 0 v = .ok c) (h4 : 4 * c ≤ 1) {a b : ℂ} (h : ‖a‖ ^ 2 + ‖b‖ ^ 2 = 1) {s : Fin 3 → Bool}
    (hs : weight s ≤ 1) :
    (1 - 4 * c) ^ 2 ≤ fidelity a b (v.matrix.toMatrix (2 ^ 3) *ᵥ (flips s *ᵥ codeword a b)) := by
  obtain ⟨u', h1, w, hw, h2⟩ := C96_flips
  obtain ⟨u'', h1', hex, -⟩ := C27_qecc
  rw [hu] at h1 h1'
  cases h1
  cases h1'
  have hex' : u.Exact (2 ^ 3) := hex
  have h3 := h2 s a b
  rw [if_pos hs] at h3
  rw [Unitary.distanceFrom_eq hex' hv] at hc
  have hc := Except.ok.inj hc
  exact near_decoder hv.unitary hex'.unitary h hw h3 (by linarith) h4

/-- The sequence returned in `out` corrects single flips of every codeword with a fidelity of at least `f`. -/
def Corrects (f : ℝ) (out : Except PyErr CompilerResult × World) : Prop :=
  ∃ R p, out.1 = .ok R ∧ (Seq.product 0 R.sequence out.2).1 = .ok p ∧ ∀ {a b : ℂ}, ‖a‖ ^ 2 + ‖b‖ ^ 2 = 1 →
    ∀ {s : Fin 3 → Bool}, weight s ≤ 1 → f ≤ fidelity a b (p.matrix.toMatrix (2 ^ 3) *ᵥ (flips s *ᵥ codeword a b))

theorem corrects_of_post {G : EntryVal → Prop} {prop : List EntryVal → PyM Rng (List EntryVal)}
    {C : Compiler} {target : Unitary} {m : ℤ} {w : World} {b t : ℝ} {out : Except PyErr CompilerResult × World}
    (hD : C.dimension = 2 ^ 3) (hex : ∀ x ∈ w.entries, x.toVal.Exact) (hG : ∀ v, G v → v.Fits 3 ∧ v.Exact)
    (ht : qeccPhaseFlip 0 = .ok target) (h4 : 3 / 4 ≤ t)
    (h : CompilePost 0 G prop C target (some t) m w b out.1 out.2)
    (hgood : Succeeds 3 target (some t) out) : Corrects ((1 - 4 * (1 - t)) ^ 2) out := by
  obtain ⟨u, h1, htex, -⟩ := C27_qecc
  rw [ht] at h1
  cases h1
  have htex' : target.Exact (2 ^ 3) := htex
  have hx := h.exact 3 rfl hD hex hG htex'
  obtain ⟨gates, costs, ⟨R, e1, -, v, e2, e3⟩, hgood⟩ := hgood
  revert hx
  rcases Metropolis.run 3 (target.matrix.toMatrix (2 ^ 3)) (some t) C.annealingRate C.maxBeta prop
    m.toNat ⟨[], b⟩ w.rng with ⟨e | tr, r⟩
  · rintro ⟨hx, -⟩
    rw [e1] at hx
    cases hx
  · rintro ⟨hx1, -, -, o', k4, k5, k6⟩
    rw [e1] at hx1
    cases hx1
    have hq := product_wp h.wf k4
    rw [Wp] at hq
    obtain ⟨o3, hq⟩ := hq
    obtain ⟨p, g1, g2, g3, -⟩ := hq.exact 3 k6
    refine ⟨_, p, e1, g1, fun hab s hs => ?_⟩
    obtain ⟨o2, f1, f2⟩ := view_eq_some.mp e2
    have f1' : out.2.seqs[w.seqs.length]? = some o2 := f1
    rw [k4] at f1'
    cases f1'
    have hg : valsOf out.2.entries o'.entries = gates := by rw [← e3, f2]; rfl
    have hd := Unitary.distanceFrom_eq htex' g2
    rw [hg] at g3
    have hov : t ≤ overlap (target.matrix.toMatrix (2 ^ 3)) (p.matrix.toMatrix (2 ^ 3)) := by
      have : 1 - overlap (target.matrix.toMatrix (2 ^ 3)) (circuit 3 gates) ≤ 1 - t := hgood
      rw [g3]; linarith
    refine le_trans ?_ (C96_near ht g2 hd (by linarith) hab hs)
    exact pow_le_pow_left₀ (by linarith) (by linarith) 2

/-- C96: a sequence that `compile` returns for the target `qecc_phase_flip` with the threshold `t`, if the search was
successful, corrects a single flip with a fidelity of at least `(1 - 4(1 - t))²`. -/
theorem C96_compiled {c : Client} {Cs : List Compiler} (hs : Session 0 c Cs) {C : Compiler} (hC : C ∈ Cs)
    (hex : ∀ x ∈ c.world.entries, x.toVal.Exact) (hD : C.dimension = 2 ^ 3)
    (hprims : ∀ p ∈ C.primitives, p.Valid 3) (hT : C.Truthy) {target : Unitary} (ht : qeccPhaseFlip 0 = .ok target)
    {t : ℝ} (h4 : 3 / 4 ≤ t) {m : ℤ} (h : Succeeds 3 target (some t) (C.compile 0 target (some t) m c.world)) :
    Corrects ((1 - 4 * (1 - t)) ^ 2) (C.compile 0 target (some t) m c.world) := by
  obtain ⟨b, hb, -⟩ := hs.ok.2.alive C hC
  exact corrects_of_post hD hex (fun v hv => generated_good hprims (by rw [← hD]; exact hv)) ht h4
    (compile_post hT hs.ok.1.wf hb) h

/-- C96: with `rotation_xy` and `xx` on three qubits, the probability that `compile` finds a sequence that corrects single
flips with a fidelity of at least `f < 1` tends to one exponentially with the number of steps, if the threshold is chosen
accordingly. -/
theorem C96_native {xy ms : ParamUnitary} (hxy : ParamDefinitions.rotationXY 0 = .ok xy)
    (hms : ParamDefinitions.xx 0 = .ok ms) {p : ℝ} (hp : 0 < p ∧ p ≤ 1) {target : Unitary}
    (ht : qeccPhaseFlip 0 = .ok target) {f : ℝ} (hf : f < 1) {B : ℕ} (hB : 3 ≤ B) :
    ∃ t < 1, ∃ (δ : ℝ) (K : ℕ), 0 < δ ∧ δ ≤ 1 ∧ 0 < K ∧ ∀ {c : Client} {Cs : List Compiler}, Session 0 c Cs →
      (∀ x ∈ c.world.entries, x.toVal.Exact) → ∀ {C : Compiler}, C ∈ Cs → C.dimension = 2 ^ 3 →
      C.primitives = [⟨.inr xy, none⟩, ⟨.inr ms, none⟩] → C.probabilities = none → C.appendProbability = p →
      0 ≤ C.annealingRate → C.Truthy → ∀ m : ℕ,
        1 - ENNReal.ofReal ((1 - δ) ^ (m / K)) ≤ Rng.tapes B {tape | Corrects f
          (C.compile 0 target (some t) m (c.world.reseed tape))} := by
  obtain ⟨u, h1, htex, -⟩ := C27_qecc
  rw [ht] at h1
  cases h1
  have htex' : target.Exact (2 ^ 3) := htex
  set t : ℝ := 1 - min (1 / 4) ((1 - f) / 8) with htdef
  have hmin : 0 < min (1 / 4) ((1 - f) / 8) := lt_min (by norm_num) (by linarith)
  have hl := min_le_left (1 / 4) ((1 - f) / 8)
  have hr := min_le_right (1 / 4) ((1 - f) / 8)
  have ht1 : t < 1 := by rw [htdef]; linarith
  have hft : f ≤ (1 - 4 * (1 - t)) ^ 2 := by
    have : f ≤ 1 - 8 * (1 - t) := by rw [htdef]; linarith
    nlinarith
  obtain ⟨δ, K, g1, g2, g3, g4⟩ := C77_native_succeeds (n := 3) (by norm_num) hxy hms (probs := none) (by simp) hp
    htex' (threshold := some t) (by rintro x ⟨⟩; exact ht1) hB
  refine ⟨t, ht1, δ, K, g1, g2, g3, fun hs hex C hC hD hP hpr hap hrate hT m => ?_⟩
  refine le_trans (g4 hs hex hC hD hP hpr hap hrate hT m) (MeasureTheory.measure_mono fun tape htape => ?_)
  obtain ⟨b, hb, -⟩ := hs.ok.2.alive C hC
  have hprims : ∀ p ∈ C.primitives, p.Valid 3 := by rw [hP]; exact native_valid (by norm_num) hxy hms
  have hb' : (World.reseed _ tape).annealing C = some b := hb
  have hpost := compile_post (target := target) (threshold := some t) (m := m) hT (hs.ok.1.wf.reseed tape) hb'
  obtain ⟨R, p, k1, k2, k3⟩ := corrects_of_post (w := World.reseed _ tape) hD hex
    (fun v hv => generated_good hprims (by rw [← hD]; exact hv)) ht (show 3 / 4 ≤ t by rw [htdef]; linarith) hpost htape
  exact ⟨R, p, k1, k2, fun hab s hs => hft.trans (k3 hab hs)⟩

/-! ## Examples -/

/-- C96: flips with a probability of one percent leave an encoded `|0⟩` intact with probability 0.999702. -/
example : ∃ u, qeccPhaseFlip 0 = .ok u ∧
    ∑ s, flipProb (1 / 100) s * fidelity 1 0 (u.matrix.toMatrix (2 ^ 3) *ᵥ (flips s *ᵥ codeword 1 0)) = 0.999702 := by
  obtain ⟨u, hu, -⟩ := C96_flips
  refine ⟨u, hu, ?_⟩
  rw [C96_rate hu (1 / 100) (a := 1) (b := 0) (by simp)]
  norm_num

/-- C96: a program that makes the compiler of the examples for three qubits; if enough steps are allowed, `compile` finds a
sequence that corrects single flips with a fidelity of 0.99 with probability at least 0.99. -/
example (rng : Rng) : ∃ (c : Client) (C : Compiler) (u : Unitary) (t : ℝ) (m0 : ℕ),
    Session 0 c [C] ∧ c.world.rng = rng ∧ qeccPhaseFlip 0 = .ok u ∧ ∀ m : ℕ, m0 ≤ m →
      1 - ENNReal.ofReal (1 / 100) ≤ Rng.tapes 3 {tape | Corrects (99 / 100)
        (C.compile 0 u (some t) m (c.world.reseed tape))} := by
  obtain ⟨⟨xy, hxy, d1, -⟩, -, ⟨ms, hms, d2, -⟩⟩ := C27_parameterized
  obtain ⟨u, hu, -⟩ := C27_qecc
  have hs := Session.newCompiler 8 [⟨.inr xy, none⟩, ⟨.inr ms, none⟩] false none (1 / 2) 1
    (Session.start (τ := 0) rng) (new_compiler_ok false none (1 / 2) 1 (by norm_num) (by
      intro q hq
      simp only [List.mem_cons, List.not_mem_nil, or_false] at hq
      rcases hq with rfl | rfl <;> simp [Primitive.getDimension, d1, d2]) _)
  obtain ⟨t, ht, δ, K, g1, g2, g3, g4⟩ := C96_native hxy hms (p := 1 / 2) (by norm_num) hu
    (f := 99 / 100) (by norm_num) (B := 3) le_rfl
  obtain ⟨m0, hm0⟩ := C69_enough_steps g1 g2 g3 (P := fun m => _)
    (g4 hs (by simp [Client.start]) List.mem_cons_self rfl rfl rfl rfl (by norm_num) ⟨by simp, by simp⟩)
    (show (0 : ℝ) < 1 / 100 by norm_num)
  exact ⟨_, _, u, t, m0, hs, rfl, hu, hm0⟩

end Stoq
