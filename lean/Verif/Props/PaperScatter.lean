import Verif.Props.PaperFidelity
import Verif.Proofs.PaperScatter

/-!
# C108: the standard deviations found in repeated simulated experiments
-/

namespace Stoq

open MeasureTheory ProbabilityTheory

local notation "I" => Set.Ico (0 : ℝ) 1

open Paper

/-- On independent uniform numbers the program returns, without an exception, one number for each number of shots.  The mean of the
square of a number is `1 - 1/R` times `variance shots`, so that the mean of the number is at most the root of this. -/
def Scatters (m : PyM Rng (List ℝ)) (shots : List ℕ) (R : ℕ) (variance : ℕ → ℝ) : Prop :=
  ∀ (nat : ℕ → ℕ) (upos npos : ℕ), ∃ S : (ℕ → I) → List ℝ,
    (∀ ω, (m ⟨ω, nat, upos, npos⟩).1 = .ok (S ω)) ∧ (∀ ω, (S ω).length = shots.length) ∧
    ∀ (i : ℕ) (hi : i < shots.length),
      MemLp (fun ω => (S ω).getD i 0) 2 uniformTape ∧
      ∫ ω, (S ω).getD i 0 ^ 2 ∂uniformTape = (1 - 1 / R) * variance shots[i] ∧
      ∫ ω, (S ω).getD i 0 ∂uniformTape ≤ √((1 - 1 / R) * variance shots[i])

namespace Paper

/-- The same as `Scatters`, with the number of random numbers that are used. -/
def ScattersOn (m : PyM Rng (List ℝ)) (shots : List ℕ) (R : ℕ) (variance : ℕ → ℝ) : Prop :=
  ∃ (S : ℕ → (ℕ → I) → List ℝ) (len : ℕ), Steady m S len ∧ ∀ u, (∀ ω, (S u ω).length = shots.length) ∧
    ∀ (i : ℕ) (hi : i < shots.length),
      MemLp (fun ω => (S u ω).getD i 0) 2 uniformTape ∧
      ∫ ω, (S u ω).getD i 0 ^ 2 ∂uniformTape = (1 - 1 / R) * variance shots[i] ∧
      ∫ ω, (S u ω).getD i 0 ∂uniformTape ≤ √((1 - 1 / R) * variance shots[i])

theorem ScattersOn.scatters {m : PyM Rng (List ℝ)} {shots : List ℕ} {R : ℕ} {variance : ℕ → ℝ} (h : ScattersOn m shots R variance) :
    Scatters m shots R variance := by
  obtain ⟨S, len, h1, h2⟩ := h
  intro nat u n
  exact ⟨S u, fun ω => by rw [h1], (h2 u).1, (h2 u).2⟩

theorem scatters_of_block {rep : ℕ → PyM Rng ℝ} {g : ℕ → I → ℝ} {off L : ℕ → ℕ} {c d : ℕ → ℝ} {shots : List ℕ}
    (hn : shots.Nodup) {R : ℕ} (hR : 0 < R) (h : ∀ K ∈ shots, Block (rep K) (g K) K (off K) (L K) (c K) (d K))
    (hg : ∀ K, Measurable (g K)) {C : ℝ} (hC : ∀ K u, |g K u| ≤ C) {a v : ℕ → ℝ}
    (hv : ∀ K ∈ shots, Rng.Estimates (rep K) (a K) (v K)) :
    ScattersOn (do let data ← shotData rep R shots; return stdData shots data) shots R v := by
  obtain ⟨len, hlen⟩ := shotData_eq h R
  refine ⟨fun u ω => stdData shots (dataOf g off L c d R shots u ω), len, fun ω nat u n => ?_, fun u => ⟨fun ω => ?_, fun i hi => ?_⟩⟩
  · rw [PyM.bind_of_ok (hlen ω nat u n)]
    rfl
  · exact List.length_map _
  · have hK : shots[i] ∈ shots := List.getElem_mem hi
    obtain ⟨u', hu'⟩ := filter_dataOf (g := g) (off := off) (L := L) (c := c) (d := d) (R := R) hn hK u
    have e : ∀ ω, (stdData shots (dataOf g off L c d R shots u ω)).getD i 0 =
        std ((List.range R).map fun j => blockValue (g shots[i]) shots[i] (off shots[i]) (c shots[i]) (d shots[i])
          (u' + j * L shots[i]) ω) := fun ω => by
      rw [← hu' ω, stdData, List.getD_eq_getElem?_getD, List.getElem?_map, List.getElem?_eq_getElem hi]
      rfl
    have hb := h _ hK
    obtain ⟨h1, h2⟩ := scatter (hg shots[i]) (hC shots[i]) hb.fits (c shots[i]) (d shots[i]) hR u'
    rw [hb.variance (hg _) (hC _) (hv _ hK)] at h2
    simp only [e]
    refine ⟨h1, h2, ?_⟩
    rw [← h2]
    refine Real.le_sqrt_of_sq_le ?_
    have h3 := variance_eq_sub h1
    have h4 := variance_nonneg (fun ω : ℕ → I => std ((List.range R).map fun j =>
      blockValue (g shots[i]) shots[i] (off shots[i]) (c shots[i]) (d shots[i]) (u' + j * L shots[i]) ω)) uniformTape
    rw [h3] at h4
    exact sub_nonneg.mp h4

theorem rav_scattersOn {D : ℕ} (hD : 1 < D) {m : Arr} (hm : m.toMatrix D ∈ Matrix.unitaryGroup (Fin D) ℂ) (start : Fin D)
    (hx : idealOutputProbs m start start ≠ 1 / D) {f : ℝ} (h0 : 0 ≤ f) (h1 : f ≤ 1) {shots : List ℕ} (hn : shots.Nodup)
    (hpos : ∀ K ∈ shots, 0 < K) {repetitions : ℕ} (hR : 0 < repetitions) :
    ScattersOn (ravStdData m start f shots repetitions) shots repetitions fun K =>
      (stdFRav K D f (1 - idealOutputProbs m start start) * ((D * idealOutputProbs m start start - 1) / (D - 1))) ^ 2 :=
  scatters_of_block (g := fun _ => coin (outputProbs f (idealOutputProbs m start) start)) (C := 1) hn hR
    (fun K _ => block_rav hm start f K) (fun _ => measurable_coin _) (fun _ u => coin_bounded _ u)
    fun K hK => C66_rav_simulation hD (hpos K hK) hm start hx h0 h1

theorem xeb_scattersOn {D : ℕ} {m : Arr} (hm : m.toMatrix D ∈ Matrix.unitaryGroup (Fin D) ℂ) (start : Fin D)
    (hu : ¬ IsUniform (idealOutputProbs m start)) {f : ℝ} (h0 : 0 ≤ f) (h1 : f ≤ 1) {shots : List ℕ} (hn : shots.Nodup)
    (hpos : ∀ K ∈ shots, 0 < K) {repetitions : ℕ} (hR : 0 < repetitions) :
    ScattersOn (xebStdData m start f shots repetitions) shots repetitions fun K =>
      shotVariance (outputProbs f (idealOutputProbs m start)) (idealOutputProbs m start) /
        (K * (∑ x, idealOutputProbs m start x ^ 2 - 1 / D) ^ 2) := by
  obtain ⟨g, hg, hC, hb⟩ := block_xeb hm start hu h0 h1
  exact scatters_of_block (g := fun _ => g) (C := 1) hn hR (fun K hK => hb K (hpos K hK)) (fun _ => hg) (fun _ => hC)
    fun K hK => C66_xeb_simulation (hpos K hK) hm start hu h0 h1

end Paper

/-- C108: `np.std` of the simulated RAV fidelities of a circuit and fraction.  The mean of its square is `1 - 1/repetitions` times the
square of what the formula says, so that on average the points lie below the curve. -/
theorem C108_rav {D : ℕ} (hD : 1 < D) {m : Arr} (hm : m.toMatrix D ∈ Matrix.unitaryGroup (Fin D) ℂ) (start : Fin D)
    (hx : idealOutputProbs m start start ≠ 1 / D) {f : ℝ} (h0 : 0 ≤ f) (h1 : f ≤ 1) {shots : List ℕ} (hn : shots.Nodup)
    (hpos : ∀ K ∈ shots, 0 < K) {repetitions : ℕ} (hR : 0 < repetitions) :
    Scatters (ravStdData m start f shots repetitions) shots repetitions fun K =>
      (stdFRav K D f (1 - idealOutputProbs m start start) * ((D * idealOutputProbs m start start - 1) / (D - 1))) ^ 2 :=
  (rav_scattersOn hD hm start hx h0 h1 hn hpos hR).scatters

/-- C108: the same for the simulated XEB fidelities. -/
theorem C108_xeb {D : ℕ} {m : Arr} (hm : m.toMatrix D ∈ Matrix.unitaryGroup (Fin D) ℂ) (start : Fin D)
    (hu : ¬ IsUniform (idealOutputProbs m start)) {f : ℝ} (h0 : 0 ≤ f) (h1 : f ≤ 1) {shots : List ℕ} (hn : shots.Nodup)
    (hpos : ∀ K ∈ shots, 0 < K) {repetitions : ℕ} (hR : 0 < repetitions) :
    Scatters (xebStdData m start f shots repetitions) shots repetitions fun K =>
      shotVariance (outputProbs f (idealOutputProbs m start)) (idealOutputProbs m start) /
        (K * (∑ x, idealOutputProbs m start x ^ 2 - 1 / D) ^ 2) :=
  (xeb_scattersOn hm start hu h0 h1 hn hpos hR).scatters

/-- C108: on average the points of XEB lie strictly below the theory curve `std_f_xeb` (no outcome is certain), those of RAV below `std_f_rav`. -/
theorem C108_below {D : ℕ} (hD : 1 < D) {m m' : Arr} (hm : m.toMatrix D ∈ Matrix.unitaryGroup (Fin D) ℂ)
    (hm' : m'.toMatrix D ∈ Matrix.unitaryGroup (Fin D) ℂ) (start : Fin D)
    (hx : idealOutputProbs m start start ≠ 1 / D) (hu : ¬ IsUniform (idealOutputProbs m' start))
    (hc : ∀ x, idealOutputProbs m' start x ≠ 1) {f : ℝ} (h0 : 0 ≤ f) (h1 : f ≤ 1) {shots : List ℕ} (hn : shots.Nodup) (hpos : ∀ K ∈ shots, 0 < K) {repetitions : ℕ} (hR : 0 < repetitions)
    (nat : ℕ → ℕ) (upos npos : ℕ) (i : ℕ) (hi : i < shots.length) :
    ∃ S T : (ℕ → I) → List ℝ,
      (∀ ω, (ravStdData m start f shots repetitions ⟨ω, nat, upos, npos⟩).1 = .ok (S ω)) ∧
      (∀ ω, (xebStdData m' start f shots repetitions ⟨ω, nat, upos, npos⟩).1 = .ok (T ω)) ∧
      Integrable (fun ω => (S ω).getD i 0) uniformTape ∧ Integrable (fun ω => (T ω).getD i 0) uniformTape ∧
      ∫ ω, (S ω).getD i 0 ∂uniformTape ≤ stdFRav shots[i] D f (1 - idealOutputProbs m start start) ∧
      ∫ ω, (T ω).getD i 0 ∂uniformTape < stdFXeb shots[i] D f (∑ x, idealOutputProbs m' start x ^ 2)
        (∑ x, idealOutputProbs m' start x ^ 3) (∑ x, idealOutputProbs m' start x ^ 4) := by
  obtain ⟨S, hS, -, hS'⟩ := C108_rav hD hm start hx h0 h1 hn hpos hR nat upos npos
  obtain ⟨T, hT, -, hT'⟩ := C108_xeb hm' start hu h0 h1 hn hpos hR nat upos npos
  obtain ⟨a1, -, a3⟩ := hS' i hi
  obtain ⟨b1, -, b3⟩ := hT' i hi
  have hKpos := hpos _ (List.getElem_mem hi)
  have hR1 : (1 : ℝ) ≤ repetitions := by exact_mod_cast hR
  have hfac : 0 ≤ 1 - 1 / (repetitions : ℝ) ∧ 1 - 1 / (repetitions : ℝ) < 1 := by
    have := (div_le_one (by linarith : (0 : ℝ) < repetitions)).mpr hR1
    have : 0 < 1 / (repetitions : ℝ) := by positivity
    constructor <;> linarith
  refine ⟨S, T, hS, hT, a1.integrable one_le_two, b1.integrable one_le_two, a3.trans ?_, b3.trans_lt ?_⟩
  · have hp := isDistribution_ideal hm start
    have hD' : (1 : ℝ) < D := by exact_mod_cast hD
    set s := stdFRav shots[i] D f (1 - idealOutputProbs m start start) with hs
    have hs0 : 0 ≤ s := Real.sqrt_nonneg _
    set q := ((D : ℝ) * idealOutputProbs m start start - 1) / (D - 1) with hq
    have hq2 : q ^ 2 ≤ 1 := by
      have hle := IsDistribution.le_one hp start
      have hge := hp.1 start
      have h2 : (2 : ℝ) ≤ D := by exact_mod_cast hD
      have u1 : q ≤ 1 := by rw [hq, div_le_one (by linarith)]; nlinarith
      have u2 : -1 ≤ q := by rw [hq, le_div_iff₀ (by linarith)]; nlinarith
      nlinarith
    refine Real.sqrt_le_iff.mpr ⟨hs0, ?_⟩
    change (1 - 1 / (repetitions : ℝ)) * (s * q) ^ 2 ≤ s ^ 2
    rw [mul_pow]
    have hs2 := sq_nonneg s
    have hq0 := sq_nonneg q
    have : (1 - 1 / (repetitions : ℝ)) * (s ^ 2 * q ^ 2) ≤ 1 * (s ^ 2 * q ^ 2) :=
      mul_le_mul_of_nonneg_right hfac.2.le (mul_nonneg hs2 hq0)
    nlinarith
  · have hp := isDistribution_ideal hm' start
    obtain ⟨hle, heq⟩ := C66_xeb_std hKpos hp hu h0 h1
    have hlt := lt_of_le_of_ne hle fun h => (heq.mp h).elim hc
    obtain ⟨X, -, -, -, -, hX⟩ := C66_xeb_simulation hKpos hm' start hu h0 h1 nat 0 0
    have hv := variance_nonneg X uniformTape
    rw [hX] at hv
    have hs0 : 0 ≤ stdFXeb shots[i] D f (∑ x, idealOutputProbs m' start x ^ 2) (∑ x, idealOutputProbs m' start x ^ 3)
      (∑ x, idealOutputProbs m' start x ^ 4) := Real.sqrt_nonneg _
    rw [← Real.sqrt_sq hs0]
    refine Real.sqrt_lt_sqrt (mul_nonneg hfac.1 hv) (lt_of_le_of_lt ?_ hlt)
    exact mul_le_of_le_one_left hv hfac.2.le

/-- C108: the numbers of shots and repetitions of figure 4, with a circuit that returns with probability 3/4. -/
example : Scatters (ravStdData sixthTurn (1 : Fin 2) (1 / 4) [25, 50, 100, 200, 400, 800, 1600, 3200, 6400] 100)
    [25, 50, 100, 200, 400, 800, 1600, 3200, 6400] 100 fun K =>
      (stdFRav K (2 : ℕ) (1 / 4) (1 - 3 / 4) * (((2 : ℕ) * (3 / 4) - 1) / ((2 : ℕ) - 1))) ^ 2 := by
  have h := C108_rav (repetitions := 100) one_lt_two sixthTurn_unitary (1 : Fin 2) (by rw [sixthTurn_probs.2]; norm_num)
    (f := 1 / 4) (by norm_num) (by norm_num) (shots := [25, 50, 100, 200, 400, 800, 1600, 3200, 6400]) (by simp) (by simp)
    (by norm_num)
  rw [sixthTurn_probs.2] at h
  exact h

/-- C108: and the same for XEB. -/
example : Scatters (xebStdData sixthTurn (1 : Fin 2) (1 / 4) [25, 50, 100, 200, 400, 800, 1600, 3200, 6400] 100)
    [25, 50, 100, 200, 400, 800, 1600, 3200, 6400] 100 fun K =>
      shotVariance (outputProbs (1 / 4) (idealOutputProbs sixthTurn (1 : Fin 2))) (idealOutputProbs sixthTurn (1 : Fin 2)) /
        (K * (∑ x, idealOutputProbs sixthTurn (1 : Fin 2) x ^ 2 - 1 / (2 : ℕ)) ^ 2) :=
  C108_xeb sixthTurn_unitary 1 sixthTurn_not_uniform (by norm_num) (by norm_num) (by simp) (by simp) (by norm_num)

/-- C108: the hypotheses of `C108_below` for the same circuit. -/
example (nat : ℕ → ℕ) : ∃ S T : (ℕ → I) → List ℝ,
    (∀ ω, (ravStdData sixthTurn (1 : Fin 2) (1 / 4) [25, 50] 100 ⟨ω, nat, 0, 0⟩).1 = .ok (S ω)) ∧
    (∀ ω, (xebStdData sixthTurn (1 : Fin 2) (1 / 4) [25, 50] 100 ⟨ω, nat, 0, 0⟩).1 = .ok (T ω)) := by
  obtain ⟨S, T, hS, hT, -⟩ := C108_below one_lt_two sixthTurn_unitary sixthTurn_unitary (1 : Fin 2)
    (by rw [sixthTurn_probs.2]; norm_num) sixthTurn_not_uniform
    (Fin.forall_fin_two.mpr ⟨by rw [sixthTurn_probs.1]; norm_num, by rw [sixthTurn_probs.2]; norm_num⟩)
    (f := 1 / 4) (by norm_num) (by norm_num) (shots := [25, 50]) (by simp) (by simp) (repetitions := 100) (by norm_num)
    nat 0 0 1 (by simp)
  exact ⟨S, T, hS, hT⟩

end Stoq
