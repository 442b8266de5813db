import Verif.Proofs.RepoEvents
import Verif.Props.RepoHamiltonianTests
import Verif.Props.RepoSearchRav
import Verif.Props.RepoSearchTests
import Verif.Props.RepoTrotterTest

/-!
# C89: that a test passes is an event

The unit tests of Model/TestsCompile and Model/TestsHamiltonian that use random numbers.  C83, C84 and C86 bound the
measure of the set of tapes with which a test passes from below, and of the set with which it fails; these sets are
measurable, so the bounds are bounds on probabilities that add up to one.
-/

namespace Stoq

open Tests Matrix MeasureTheory

/-- The tapes with which the test passes are an event. -/
def PassEvent (test : PyM Client Unit) : Prop := MeasurableSet {t | PassesOn test t}

/-- C89: the tests of the compiler. -/
theorem C89_compiler_events (fmt : ℕ → ℝ → String) (m : ℤ) : PassEvent (compileIdentity 0 fmt m) ∧
    PassEvent (compileSigmaz 0 fmt m) ∧ PassEvent (compileTwoQubits 0 fmt m) ∧ PassEvent (compileSigmazApproximate 0 m) := by
  refine ⟨?_, ?_, ?_, ?_⟩
  · unfold PassEvent
    simp only [C83_compile_identity]
    exact .const True
  · obtain ⟨x, y, z, hx, hy, hz, -, -, -, h⟩ := compileSigmaz_iff fmt
    simp only [PassEvent, PassesOn, h]
    exact finds_event (by simpa using ⟨fixed_valid (k := 1) hx le_rfl le_rfl, fixed_valid (k := 1) hy le_rfl le_rfl⟩)
      (by simp [Primitive.Continuous]) _ _ _
  · obtain ⟨x, y, x', T, hx, hy, -, -, -, -, -, h⟩ := compileTwoQubits_iff fmt
    simp only [PassEvent, PassesOn, h]
    exact finds_event (by simpa using ⟨fixed_valid (k := 1) hx le_rfl (by norm_num), fixed_valid (k := 2) hy (by norm_num) le_rfl⟩)
      (by simp [Primitive.Continuous]) _ _ _
  · obtain ⟨z, -, -, h⟩ := compileSigmazApproximate_iff
    simp only [PassEvent, PassesOn, h]
    exact finds_event (by simpa using testRotation_valid) (by simpa [Primitive.Continuous] using testRotation_continuous) _ _ _

/-- C89: the tests of verification sequences. -/
theorem C89_verification_events (fmt : ℕ → ℝ → String) (m : ℤ) : PassEvent (ravNoInverse 0 fmt) ∧ PassEvent (xeb 0 fmt) ∧
    PassEvent (rav 0 fmt m) ∧ PassEvent (layeredRav 0 fmt m) := by
  obtain ⟨xy, ms, hxy, hms, -⟩ := nativePrimitives_eq
  refine ⟨?_, ?_, ?_, ?_⟩
  · unfold PassEvent
    simp only [(C84_no_inverse fmt _).1]
    exact .const True
  · unfold PassEvent
    simp only [(C84_no_inverse fmt _).2]
    exact .const True
  · have hset : ∀ t : Rng.Tape, PassesOn (rav 0 fmt m) t ↔ _ := rav_iff fmt hxy hms m
    simp only [PassEvent, hset]
    exact C88_comesBack (C88_rav (n := 2) (.start (Rng.start (fun _ => ⟨0, by norm_num⟩, fun _ => 0))) (by simp [Client.start])
      (native_ok hxy hms) (native_continuous hxy hms) (by simp) (arr := false) (by simp) (L := 10) (by norm_num) (t := 0.5) (by norm_num)
      0.5 none m) _
  · have hset : ∀ t : Rng.Tape, PassesOn (layeredRav 0 fmt m) t ↔ _ := layeredRav_iff fmt hxy hms m
    simp only [PassEvent, hset]
    exact C88_comesBack (C88_layeredRav (n := 2) (.start (Rng.start (fun _ => ⟨0, by norm_num⟩, fun _ => 0))) (by simp [Client.start])
      (by simpa using native_ok hxy hms) (by simpa using ⟨rotationXY_continuous hxy, xx_continuous hms⟩) (L := 10) (by norm_num)
      (t := 0.5) (by norm_num) 0.5 m) _

/-- C89: the tests of Hamiltonians. -/
theorem C89_hamiltonian_events (fmt : ℕ → ℝ → String) (fuel : ℕ) : PassEvent (idealSequence 0) ∧ PassEvent (qdrift 0) ∧
    PassEvent (trotterization 0) ∧ PassEvent (stoq 0 fmt) ∧ PassEvent (hamiltonianRav 0 fmt fuel) := by
  refine ⟨?_, ?_, ?_, stoq_event fmt, ?_⟩
  · unfold PassEvent
    simp only [C86_ideal_sequence]
    exact .const True
  · obtain ⟨H, h1, hd, hH⟩ := xy_101
    obtain ⟨D, d1, -, d3, -⟩ := C85_qdrift_distance le_rfl hH 0.543 (N := 1000) (by norm_num) rfl
    have hset : ∀ t : Rng.Tape, PassesOn (qdrift 0) t ↔ Metropolis.GoodEnough (some 0.95) (D t.1) := fun t => by
      refine qdrift_iff h1 hd hH t ?_
      have hx := d3 (c := fresh t) (.start _) (by simp [fresh, Client.start]) t.1
      have e : (fun j => t.1 ((fresh t).world.rng.upos + j)) = t.1 := by
        funext j
        rw [show (fresh t).world.rng.upos = 0 from rfl, zero_add]
      rwa [e] at hx
    simp only [PassEvent, hset]
    exact measurableSet_good _ (d1.comp measurable_fst)
  · obtain ⟨H, h1, hd, hH⟩ := xy_23
    have p1 := ((reshuffle_law (l := [0, 1]) (by simp) (B := 2) le_rfl 20 [0, 1] (.refl _)).probability {orders |
        1 - overlap (evolution (xyTerms 2 (-3)).sum 1.234) (stepOf [0, 1] ^ 20) ≤ 0.05 ∧
        1 - overlap (evolution (xyTerms 2 (-3)).sum 1.234) (stepsOf orders) ≤ 0.05 ∧
        ¬ 1 - overlap (stepOf [0, 1] ^ 20) (stepsOf orders) ≤ 1 / 100000000}).1
    unfold PassEvent
    convert p1 using 1
    ext t
    obtain ⟨orders, r', g1, g2⟩ := trotterization_iff h1 hd hH t
    simp only [Set.mem_ofPred_eq, PassesOn, g1]
    constructor
    · intro h; exact ⟨orders, g2.mp h, rfl⟩
    · rintro ⟨a, ha, h⟩
      cases h
      exact g2.mpr ha
  · obtain ⟨H, h1, hd, hH⟩ := xy_23
    have hset : ∀ t : Rng.Tape, PassesOn (hamiltonianRav 0 fmt fuel) t ↔ _ := hamiltonianRav_iff fmt h1 hd hH fuel
    simp only [PassEvent, hset]
    exact C88_rav_succeeds (C88_hamiltonian_rav (.start (Rng.start (fun _ => ⟨0, by norm_num⟩, fun _ => 0))) (by simp [Client.start])
      le_rfl hH _ (by norm_num) _ _ _) _

/-! ## The probabilities -/

/-- What the bounds on the measures say about the probabilities of a test with a limit `m` on the number of steps: it
fails with a probability that decreases exponentially in `m`, but passes with a probability less than one for every
`m`; and with probability one there is a limit with which it passes. -/
def PassesEventually (B : ℕ) (test : ℕ → PyM Client Unit) : Prop :=
  (∃ (δ : ℝ) (K : ℕ), 0 < δ ∧ δ ≤ 1 ∧ 0 < K ∧ ∀ m, Rng.tapes B {t | ¬ PassesOn (test m) t} ≤ ENNReal.ofReal ((1 - δ) ^ (m / K))) ∧
  (∃ q : ℝ, 0 < q ∧ q ≤ 1 ∧ ∀ m, Rng.tapes B {t | PassesOn (test m) t} ≤ ENNReal.ofReal (1 - q * (1 / 2) ^ m)) ∧
  ∀ᵐ t ∂Rng.tapes B, ∃ m, PassesOn (test m) t

theorem passes_of_bounds {B : ℕ} {test : ℕ → PyM Client Unit} (hE : ∀ m, PassEvent (test m))
    (h1 : ∃ (δ : ℝ) (K : ℕ), 0 < δ ∧ δ ≤ 1 ∧ 0 < K ∧ ∀ m : ℕ,
      1 - ENNReal.ofReal ((1 - δ) ^ (m / K)) ≤ Rng.tapes B {t | PassesOn (test m) t})
    (h2 : ∃ q : ℝ, 0 < q ∧ q ≤ 1 ∧ ∀ m : ℕ, ENNReal.ofReal (q * (1 / 2) ^ m) ≤ Rng.tapes B {t | ¬ PassesOn (test m) t}) :
    PassesEventually B test := by
  obtain ⟨δ, K, d1, d2, d3, d4⟩ := h1
  obtain ⟨q, q1, q2, q3⟩ := h2
  have hfail : ∀ m, Rng.tapes B {t | ¬ PassesOn (test m) t} ≤ ENNReal.ofReal ((1 - δ) ^ (m / K)) := fun m =>
    fails_of_succeeds (hE m) (d4 m)
  refine ⟨⟨δ, K, d1, d2, d3, hfail⟩, ⟨q, q1, q2, fun m => ?_⟩, ?_⟩
  · have := q3 m
    rw [show {t | ¬ PassesOn (test m) t} = {t | PassesOn (test m) t}ᶜ from rfl, prob_compl_eq_one_sub (hE m)] at this
    rw [ENNReal.ofReal_sub _ (by positivity), ENNReal.ofReal_one]
    exact ENNReal.le_sub_of_add_le_left ENNReal.ofReal_ne_top (by
      rw [add_comm]
      have h := add_le_add_left this (Rng.tapes B {t | PassesOn (test m) t})
      rw [tsub_add_cancel_of_le prob_le_one] at h
      rw [add_comm]
      exact h)
  · rw [ae_iff]
    refine le_antisymm (ENNReal.le_of_forall_pos_le_add fun ε hε _ => ?_) zero_le
    rw [zero_add]
    obtain ⟨k, hk⟩ := exists_pow_lt_of_lt_one (show (0 : ℝ) < ε by exact_mod_cast hε) (show 1 - δ < 1 by linarith)
    have := hfail (k * K)
    rw [Nat.mul_div_cancel _ d3] at this
    refine (measure_mono fun t ht => ?_).trans (this.trans ?_)
    · simp only [Set.mem_ofPred_eq, not_exists] at ht ⊢
      exact ht _
    · rw [← ENNReal.ofReal_coe_nnreal]
      exact ENNReal.ofReal_le_ofReal hk.le

/-- C89: the tests of the compiler pass eventually. -/
theorem C89_compiler (fmt : ℕ → ℝ → String) {B : ℕ} (hB : 2 ≤ B) :
    PassesEventually B (fun m => compileSigmaz 0 fmt m) ∧ PassesEventually B (fun m => compileTwoQubits 0 fmt m) ∧
    PassesEventually B (fun m => compileSigmazApproximate 0 m) := by
  refine ⟨?_, ?_, ?_⟩
  · obtain ⟨h1, h2⟩ := C83_compile_sigmaz fmt hB
    exact passes_of_bounds (fun m => (C89_compiler_events fmt m).2.1) h1 ⟨1, one_pos, le_rfl, by simpa only [one_mul] using h2⟩
  · obtain ⟨h1, h2⟩ := C83_compile_two_qubits fmt hB
    exact passes_of_bounds (fun m => (C89_compiler_events fmt m).2.2.1) h1 ⟨1, one_pos, le_rfl, by simpa only [one_mul] using h2⟩
  · obtain ⟨h1, h2⟩ := C83_compile_sigmaz_approximate (B := B) (by omega)
    exact passes_of_bounds (fun m => (C89_compiler_events fmt m).2.2.2) h1 ⟨1, one_pos, le_rfl, by simpa only [one_mul] using h2⟩

/-- C89: the tests of verification sequences pass eventually. -/
theorem C89_verification (fmt : ℕ → ℝ → String) {B : ℕ} (hB : 4 ≤ B) :
    PassesEventually B (fun m => rav 0 fmt m) ∧ PassesEventually B (fun m => layeredRav 0 fmt m) := by
  constructor
  · obtain ⟨h1, h2⟩ := C84_rav fmt (B := B) (by omega)
    exact passes_of_bounds (fun m => (C89_verification_events fmt m).2.2.1) h1 h2
  · obtain ⟨h1, h2⟩ := C84_layered_rav fmt hB
    exact passes_of_bounds (fun m => (C89_verification_events fmt m).2.2.2) h1 h2

theorem fails_of_bound {B : ℕ} {test : PyM Client Unit} (hE : PassEvent test) {x : ℝ} (hx : 0 ≤ x)
    (h : ENNReal.ofReal x ≤ Rng.tapes B {t | PassesOn test t}) :
    Rng.tapes B {t | ¬ PassesOn test t} ≤ ENNReal.ofReal (1 - x) := by
  rw [show {t | ¬ PassesOn test t} = {t | PassesOn test t}ᶜ from rfl, prob_compl_eq_one_sub hE, ENNReal.ofReal_sub _ hx,
    ENNReal.ofReal_one]
  exact tsub_le_tsub_left h _

theorem passes_of_bound {B : ℕ} {test : PyM Client Unit} (hE : PassEvent test) {x : ℝ} (hx : 0 ≤ x)
    (h : ENNReal.ofReal x ≤ Rng.tapes B {t | ¬ PassesOn test t}) :
    Rng.tapes B {t | PassesOn test t} ≤ ENNReal.ofReal (1 - x) := by
  have : {t | PassesOn test t} = {t | ¬ PassesOn test t}ᶜ := by
    ext t
    simp
  rw [this, prob_compl_eq_one_sub (show MeasurableSet {t | ¬ PassesOn test t} from MeasurableSet.compl hE), ENNReal.ofReal_sub _ hx,
    ENNReal.ofReal_one]
  exact tsub_le_tsub_left h _

/-- C89: the tests of Hamiltonians.  That of QDRIFT fails in at most one of ten cases, that of the Trotter sequences in
at most four of ten but in some; that of the two compilations and that of the verification sequence fail with a
probability less than one. -/
theorem C89_hamiltonian {B : ℕ} (hB : 3 ≤ B) : Rng.tapes B {t | ¬ PassesOn (qdrift 0) t} ≤ ENNReal.ofReal (1 / 10) ∧
    Rng.tapes B {t | ¬ PassesOn (trotterization 0) t} ≤ ENNReal.ofReal (2 / 5) ∧
    Rng.tapes B {t | PassesOn (trotterization 0) t} ≤ ENNReal.ofReal (1 - (1 / 2) ^ 20) ∧
    (∃ δ : ℝ, 0 < δ ∧ δ ≤ 1 ∧ ∀ fmt : ℕ → ℝ → String, Rng.tapes B {t | ¬ PassesOn (stoq 0 fmt) t} ≤ ENNReal.ofReal (1 - δ)) ∧
    ∃ δ : ℝ, 0 < δ ∧ δ ≤ 1 ∧ ∀ (fmt : ℕ → ℝ → String) (fuel : ℕ), 10000 ≤ fuel →
      Rng.tapes B {t | ¬ PassesOn (hamiltonianRav 0 fmt fuel) t} ≤ ENNReal.ofReal (1 - δ) := by
  have hle : ∀ {δ : ℝ} {E : Set Rng.Tape}, ENNReal.ofReal δ ≤ Rng.tapes B E → δ ≤ 1 := fun {δ E} h => by
    have := h.trans prob_le_one
    rwa [← ENNReal.ofReal_one, ENNReal.ofReal_le_ofReal_iff zero_le_one] at this
  have hE := C89_hamiltonian_events (fun _ _ => "") 0
  refine ⟨fails_of_succeeds hE.2.1 (C86_qdrift B), ?_, passes_of_bound hE.2.2.1 (by positivity) (C86_trotter_fails (by omega)), ?_, ?_⟩
  · refine (fails_of_bound hE.2.2.1 (by norm_num) (C86_trotter (B := B) (by omega))).trans_eq ?_
    norm_num
  · obtain ⟨δ, h1, h2⟩ := C86_stoq hB
    exact ⟨δ, h1, hle (h2 fun _ _ => ""), fun fmt => fails_of_bound (C89_hamiltonian_events fmt 0).2.2.2.1 h1.le (h2 fmt)⟩
  · obtain ⟨δ, h1, h2⟩ := C86_rav hB
    exact ⟨δ, h1, hle (h2 (fun _ _ => "") 10000 le_rfl), fun fmt fuel hf =>
      fails_of_bound (C89_hamiltonian_events fmt fuel).2.2.2.2 h1.le (h2 fmt fuel hf)⟩

/-- The event is neither empty nor everything: there are random numbers with which the test of the Trotter sequences
passes, and others with which it fails. -/
example : (∃ t, PassesOn (trotterization 0) t) ∧ ∃ t, ¬ PassesOn (trotterization 0) t :=
  ⟨exists_tape (B := 2) (by norm_num) (C86_trotter le_rfl), exists_tape (B := 2) (by positivity) (C86_trotter_fails le_rfl)⟩

end Stoq
