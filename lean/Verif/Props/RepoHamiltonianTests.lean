import Verif.Props.RepoSearchTests
import Verif.Proofs.RepoHamiltonianSearch

/-!
# Properties C86: the unit tests of Hamiltonians (tests/test_hamiltonian.py)

The tests of Model/TestsCompile; those that use random numbers in exact arithmetic, as functions of the random tape.
-/

namespace Stoq

open Tests Matrix MeasureTheory

open scoped Matrix.Norms.L2Operator

/-- C86: the tests that use no random numbers.  Those of the enumeration, of the constructors and of a single matrix
pass; the one that compares time evolutions passes for every fine arithmetic. -/
theorem C86_construction : actionEnum = .ok () ∧ termsMismatched = .ok () ∧ nonHermitian = .ok () ∧
    simpleHermitian = .ok () ∧ ∀ τ : Arith, Fine τ → simpleTerms τ = .ok () :=
  ⟨pass_actionEnum, pass_termsMismatched, pass_nonHermitian, pass_simpleHermitian, fun _ => pass_simpleTerms⟩

/-- C86: the test of the ideal sequence passes whatever the random numbers are. -/
theorem C86_ideal_sequence (t : Rng.Tape) : PassesOn (idealSequence 0) t := pass_idealSequence t

/-- C86: the test of the QDRIFT sequence (1000 draws, threshold 0.95) passes with probability at least 9/10. -/
theorem C86_qdrift (B : ℕ) : 1 - ENNReal.ofReal (1 / 10) ≤ Rng.tapes B {t | PassesOn (qdrift 0) t} := by
  obtain ⟨H, h1, hd, hH⟩ := xy_101
  obtain ⟨D, d1, d2, d3, -, d5, d6⟩ := C85_qdrift_distance le_rfl hH 0.543 (N := 1000) (by norm_num) rfl
  have hmean : ∫ ω, D ω ∂uniformTape ≤ 0.005 := by
    refine d5.trans ?_
    have h2 : ((xyTerms 10 (-1)).map maxAbsEigenvalue).sum = 11 := by
      rw [xy_strength (by norm_num) (by norm_num)]; norm_num
    have h3 : ‖qdriftVariance (xyTerms 10 (-1))‖ = 20 := by
      rw [xy_variance (by norm_num) (by norm_num)]; norm_num
    rw [h2, h3]
    have h4 : Real.exp (|(0.543 : ℝ)| * 11 / (1000 : ℕ)) ≤ 3 := by
      refine (Real.exp_le_exp.mpr (show _ ≤ (1 : ℝ) by rw [abs_of_pos (by norm_num)]; norm_num)).trans ?_
      exact Real.exp_one_lt_d9.le.trans (by norm_num)
    have h5 : (|(0.543 : ℝ)| * 11) ^ 3 / (3 * ((1000 : ℕ) : ℝ) ^ 2) * Real.exp (|(0.543 : ℝ)| * 11 / (1000 : ℕ)) ≤
        (|(0.543 : ℝ)| * 11) ^ 3 / (3 * ((1000 : ℕ) : ℝ) ^ 2) * 3 := by gcongr
    refine (add_le_add_right h5 _).trans ?_
    rw [abs_of_pos (by norm_num : (0 : ℝ) < 0.543)]
    norm_num
  have hbad : uniformTape {ω | 0.05 ≤ D ω} ≤ ENNReal.ofReal (1 / 10) := by
    refine (d6 0.05 (by norm_num)).trans (ENNReal.ofReal_le_ofReal ?_)
    rw [div_le_iff₀ (by norm_num)]
    linarith
  have hfst : MeasurePreserving (Prod.fst : Rng.Tape → _) (Rng.tapes B) uniformTape := measurePreserving_fst
  have hm : MeasurableSet {ω | 0.05 ≤ D ω} := measurableSet_le measurable_const d1
  have hgood : 1 - ENNReal.ofReal (1 / 10) ≤ Rng.tapes B (Prod.fst ⁻¹' {ω | 0.05 ≤ D ω}ᶜ) := by
    rw [hfst.measure_preimage hm.compl.nullMeasurableSet, prob_compl_eq_one_sub hm]
    exact tsub_le_tsub_left hbad _
  refine hgood.trans (measure_mono fun t ht => ?_)
  have hx := d3 (c := fresh t) (.start _) (by simp [fresh, Client.start]) t.1
  refine pass_qdrift h1 hd hH t hx ?_
  have : D t.1 < 0.05 := not_le.mp ht
  have e : (fun j => t.1 ((fresh t).world.rng.upos + j)) = t.1 := by
    funext j
    rw [show (fresh t).world.rng.upos = 0 from rfl, zero_add]
  rw [e]
  exact this.le

/-- C86: the test of the two calls of the compiler passes with a positive probability. -/
theorem C86_stoq {B : ℕ} (hB : 3 ≤ B) :
    ∃ δ : ℝ, 0 < δ ∧ ∀ fmt : ℕ → ℝ → String, ENNReal.ofReal δ ≤ Rng.tapes B {t | PassesOn (stoq 0 fmt) t} := by
  obtain ⟨H, h1, hd, hH⟩ := xy_23
  have hL : ((xyTerms 2 (-3)).map maxAbsEigenvalue).sum = 5 := by
    rw [xy_strength (by norm_num) (by norm_num)]; norm_num
  obtain ⟨k1, k2, k3⟩ := trotterWord_spec hH (t := 0.543) (N := 1000) (by norm_num) rfl
  have hgood : 1 - overlap (evolution (xyTerms 2 (-3)).sum 0.543)
      (evolutionWord (xyTerms 2 (-3)) (trotterWord (xyTerms 2 (-3)).length 1000 0.543)) < Metropolis.allowed (some 0.9) := by
    refine k3.trans_lt ?_
    rw [hL, abs_of_pos (by norm_num)]
    have h4 : Real.exp (0.543 * 5 / (1000 : ℕ)) ≤ 3 := by
      refine (Real.exp_le_exp.mpr (show _ ≤ (1 : ℝ) by norm_num)).trans ?_
      exact Real.exp_one_lt_d9.le.trans (by norm_num)
    have h5 : ((0.543 * 5 : ℝ) ^ 2 * Real.exp (0.543 * 5 / (1000 : ℕ)) / (1000 : ℕ)) ^ 2 / 2 ≤
        ((0.543 * 5 : ℝ) ^ 2 * 3 / (1000 : ℕ)) ^ 2 / 2 := by gcongr
    refine h5.trans_lt ?_
    norm_num [Metropolis.allowed]
  have hw : ∀ b, WordOk H b (0.543 / 10) (trotterWord (xyTerms 2 (-3)).length 1000 0.543) := fun b x hx => by
    obtain ⟨h4, h5⟩ := k1 x hx
    refine ⟨h4 b, ?_⟩
    rw [h5, abs_of_pos (by norm_num)]
    norm_num
  have hlen : (trotterWord (xyTerms 2 (-3)).length 1000 0.543).length ≤ 10000 := by
    rw [k2]; simp [xyTerms]
  have hc : H.terms.length = 2 := by rw [hH.length]; rfl
  have hcount : ∀ b, (H.termSubsets b).length ≤ B := by
    rintro (_ | _)
    · rw [C50_single, List.length_map, List.length_range, hc]; omega
    · rw [C50_count, hc]; exact hB
  obtain ⟨δ₁, a1, a2, a3⟩ := stoq_then le_rfl hH (by norm_num) (hw true) hlen hgood (B := B) (by omega) (hcount true)
  obtain ⟨δ₂, b1, b2, b3⟩ := stoq_then le_rfl hH (by norm_num) (hw false) hlen hgood (B := B) (by omega) (hcount false)
  have c1 := a3 1 zero_le_one le_rfl Set.univ (by simp)
  rw [mul_one] at c1
  refine ⟨δ₂ * δ₁, by positivity, fun fmt => (b3 δ₁ a1.le a2 _ c1).trans (measure_mono fun t ht => ?_)⟩
  exact pass_stoq fmt h1 hd hH ht fun t' ht' w g1 g2 g3 => (ht' w g1 g2 g3).1

/-- C86: the test of the verification sequence passes with a positive probability. -/
theorem C86_rav {B : ℕ} (hB : 3 ≤ B) :
    ∃ δ : ℝ, 0 < δ ∧ ∀ (fmt : ℕ → ℝ → String) (fuel : ℕ), 10000 ≤ fuel →
      ENNReal.ofReal δ ≤ Rng.tapes B {t | PassesOn (hamiltonianRav 0 fmt fuel) t} := by
  obtain ⟨H, h1, hd, hH⟩ := xy_23
  have hc : H.terms.length = 2 := by rw [hH.length]; rfl
  obtain ⟨δ, k1, k2⟩ := C80_rav_possible le_rfl hH (time := 0.543) (m := 0.543 / 10) (by norm_num) (by norm_num)
    (threshold := some 0.9) (by norm_num [Metropolis.allowed]) true (B := B) (by omega) (by rw [C50_count, hc]; exact hB)
  refine ⟨δ, k1, fun fmt fuel hf => (k2 (c := fresh (fun _ => ⟨0, by norm_num, by norm_num⟩, fun _ => 0)) (.start _) (by simp [fresh, Client.start]) fuel hf).trans
    (measure_mono fun t ht => ?_)⟩
  exact (hamiltonianRav_iff fmt h1 hd hH fuel t).mpr ht

end Stoq
