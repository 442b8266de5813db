import Verif.Props.PaperScatter
import Verif.Props.PaperFig3
import Verif.Proofs.ReturnProb
import Verif.Proofs.PaperFig4

/-!
# C109: the points and curves of figure 4
-/

namespace Stoq

open MeasureTheory ProbabilityTheory

local notation "I" => Set.Ico (0 : ℝ) 1

open Paper

/-- On independent uniform numbers the program returns a point and an error bar without an exception: the mean and the standard
deviation, divided by the root of the number of circuits, of one number for each circuit.  The mean of the square of the `k`-th
number is `1 - 1/R` times the `k`-th variance; the mean of the height of the point is at most `bound`. -/
def Averages (m : PyM Rng (ℝ × ℝ)) (R : ℕ) (variances : List ℝ) (bound : ℝ) : Prop :=
  ∀ (nat : ℕ → ℕ) (upos npos : ℕ), ∃ raw : (ℕ → I) → List ℝ,
    (∀ ω, (m ⟨ω, nat, upos, npos⟩).1 = .ok (mean (raw ω), std (raw ω) / √variances.length)) ∧
    (∀ ω, (raw ω).length = variances.length) ∧
    (∀ (k : ℕ) (hk : k < variances.length), MemLp (fun ω => (raw ω).getD k 0) 2 uniformTape ∧
      ∫ ω, (raw ω).getD k 0 ^ 2 ∂uniformTape = (1 - 1 / R) * variances[k]) ∧
    Integrable (fun ω => mean (raw ω)) uniformTape ∧ ∫ ω, mean (raw ω) ∂uniformTape ≤ bound

namespace Paper

theorem averages_of_scatters {experiment : Arr → ℝ → List ℕ → ℕ → PyM Rng (List ℝ)} {circuits : List Arr} {fractions : List ℝ}
    {shots : List ℕ} {R nShots j : ℕ} (hj : j < fractions.length) (hK : nShots ∈ shots) {v : Arr → ℝ → ℕ → ℝ}
    (h : ∀ m ∈ circuits, ∀ f ∈ fractions, ScattersOn (experiment m f shots R) shots R (v m f)) :
    Averages (fig4Dashed experiment circuits fractions shots R nShots j) R (circuits.map fun m => v m fractions[j] nShots)
      (mean (circuits.map fun m => √((1 - 1 / R) * v m fractions[j] nShots))) := by
  intro nat u n
  have h' : ∀ m f, ∃ (S : ℕ → (ℕ → I) → List ℝ) (len : ℕ), m ∈ circuits → f ∈ fractions →
      (Steady (experiment m f shots R) S len ∧ ∀ u, (∀ ω, (S u ω).length = shots.length) ∧
        ∀ (i : ℕ) (hi : i < shots.length),
          MemLp (fun ω => (S u ω).getD i 0) 2 uniformTape ∧
          ∫ ω, (S u ω).getD i 0 ^ 2 ∂uniformTape = (1 - 1 / R) * v m f shots[i] ∧
          ∫ ω, (S u ω).getD i 0 ∂uniformTape ≤ √((1 - 1 / R) * v m f shots[i])) := by
    intro m f
    by_cases hm : m ∈ circuits
    · by_cases hf : f ∈ fractions
      · obtain ⟨S, len, hS⟩ := h m hm f hf
        exact ⟨S, len, fun _ _ => hS⟩
      · exact ⟨fun _ _ => [], 0, fun _ h => absurd h hf⟩
    · exact ⟨fun _ _ => [], 0, fun h => absurd h hm⟩
  choose S len hS using h'
  obtain ⟨raw, h1, h2, h3, h4⟩ := dashed_of_steady (S := S) (len := len)
    (b := fun m => √((1 - 1 / R) * v m fractions[j] nShots)) hj hK
    (fun m hm f hf => ⟨(hS m f hm hf).1, fun u => ((hS m f hm hf).2 u).1⟩)
    (fun m hm i hi hik u => by
      obtain ⟨a1, -, a3⟩ := ((hS m fractions[j] hm (List.getElem_mem hj)).2 u).2 i hi
      rw [hik] at a3
      exact ⟨a1.integrable one_le_two, a3⟩)
    (P := fun m X => MemLp X 2 uniformTape ∧ ∫ ω, X ω ^ 2 ∂uniformTape = (1 - 1 / R) * v m fractions[j] nShots)
    (fun m hm i hi hik u => by
      obtain ⟨a1, a2, -⟩ := ((hS m fractions[j] hm (List.getElem_mem hj)).2 u).2 i hi
      rw [hik] at a2
      exact ⟨a1, a2⟩) nat u n
  refine ⟨raw, fun ω => ?_, fun ω => ?_, fun k hk => ?_, h4⟩
  · rw [h1 ω, fig4Point, h2 ω, List.length_map]
  · rw [h2 ω, List.length_map]
  · rw [List.length_map] at hk
    rw [List.getElem_map]
    exact h3 k hk

theorem mean_map_le {α : Type} {l : List α} (hl : l ≠ []) {b : α → ℝ} {B : ℝ} (h : ∀ a ∈ l, b a ≤ B) : mean (l.map b) ≤ B := by
  have hpos : (0 : ℝ) < l.length := by exact_mod_cast List.length_pos_of_ne_nil hl
  rw [mean, List.length_map, div_le_iff₀ hpos]
  clear hpos hl
  induction l with
  | nil => simp
  | cons a l ih =>
    rw [List.map_cons, List.sum_cons, List.length_cons]
    have := h a List.mem_cons_self
    have := ih fun c hc => h c (List.mem_cons_of_mem _ hc)
    push_cast
    linarith

theorem averages_mono {m : PyM Rng (ℝ × ℝ)} {R : ℕ} {vs : List ℝ} {a b : ℝ} (h : Averages m R vs a) (hab : a ≤ b) :
    Averages m R vs b := by
  intro nat u n
  obtain ⟨raw, h1, h2, h3, h4, h5⟩ := h nat u n
  exact ⟨raw, h1, h2, h3, h4, h5.trans hab⟩

end Paper

variable {D : ℕ} {circuits : List Arr} {fractions : List ℝ} {shots : List ℕ} {repetitions nShots j : ℕ}

/-- C109: the dashed line of RAV.  On average a point is at most the mean over the circuits of the standard deviation of one
simulated experiment, times the root of `1 - 1/repetitions`. -/
theorem C109_rav (hD : 1 < D) (hm : ∀ m ∈ circuits, m.toMatrix D ∈ Matrix.unitaryGroup (Fin D) ℂ) (start : Fin D)
    (hx : ∀ m ∈ circuits, idealOutputProbs m start start ≠ 1 / D) (hf : ∀ f ∈ fractions, 0 ≤ f ∧ f ≤ 1) (hn : shots.Nodup)
    (hpos : ∀ K ∈ shots, 0 < K) (hR : 0 < repetitions) (hK : nShots ∈ shots) (hj : j < fractions.length) :
    Averages (fig4Dashed (fun m f => ravStdData m start f) circuits fractions shots repetitions nShots j) repetitions
      (circuits.map fun m => (stdFRav nShots D fractions[j] (1 - idealOutputProbs m start start) *
        ((D * idealOutputProbs m start start - 1) / (D - 1))) ^ 2)
      (mean (circuits.map fun m => √((1 - 1 / repetitions) * (stdFRav nShots D fractions[j] (1 - idealOutputProbs m start start) *
        ((D * idealOutputProbs m start start - 1) / (D - 1))) ^ 2))) :=
  averages_of_scatters hj hK (v := fun m f K => (stdFRav K D f (1 - idealOutputProbs m start start) *
      ((D * idealOutputProbs m start start - 1) / (D - 1))) ^ 2)
    fun m hmm f hff => rav_scattersOn hD (hm m hmm) start (hx m hmm) (hf f hff).1 (hf f hff).2 hn hpos hR

/-- C109: the dashed line of XEB. -/
theorem C109_xeb (hm : ∀ m ∈ circuits, m.toMatrix D ∈ Matrix.unitaryGroup (Fin D) ℂ) (start : Fin D)
    (hu : ∀ m ∈ circuits, ¬ IsUniform (idealOutputProbs m start)) (hf : ∀ f ∈ fractions, 0 ≤ f ∧ f ≤ 1) (hn : shots.Nodup)
    (hpos : ∀ K ∈ shots, 0 < K) (hR : 0 < repetitions) (hK : nShots ∈ shots) (hj : j < fractions.length) :
    Averages (fig4Dashed (fun m f => xebStdData m start f) circuits fractions shots repetitions nShots j) repetitions
      (circuits.map fun m => shotVariance (outputProbs fractions[j] (idealOutputProbs m start)) (idealOutputProbs m start) /
        (nShots * (∑ x, idealOutputProbs m start x ^ 2 - 1 / D) ^ 2))
      (mean (circuits.map fun m => √((1 - 1 / repetitions) *
        (shotVariance (outputProbs fractions[j] (idealOutputProbs m start)) (idealOutputProbs m start) /
          (nShots * (∑ x, idealOutputProbs m start x ^ 2 - 1 / D) ^ 2))))) :=
  averages_of_scatters hj hK (v := fun m f K => shotVariance (outputProbs f (idealOutputProbs m start)) (idealOutputProbs m start) /
      (K * (∑ x, idealOutputProbs m start x ^ 2 - 1 / D) ^ 2))
    fun m hmm f hff => xeb_scattersOn (hm m hmm) start (hu m hmm) (hf f hff).1 (hf f hff).2 hn hpos hR

/-- C109: if all circuits return with probability at least `1 - e`, the points of RAV are on average not above the solid line, which
is drawn for the error `e`. -/
theorem C109_below_solid (hD : 1 < D) (hne : circuits ≠ []) (hm : ∀ m ∈ circuits, m.toMatrix D ∈ Matrix.unitaryGroup (Fin D) ℂ)
    (start : Fin D) {e : ℝ} (he : 1 / (D : ℝ) < 1 - e) (hx : ∀ m ∈ circuits, 1 - e ≤ idealOutputProbs m start start)
    (hf : ∀ f ∈ fractions, 0 ≤ f ∧ f ≤ 1) (hn : shots.Nodup)
    (hpos : ∀ K ∈ shots, 0 < K) (hR : 0 < repetitions) (hK : nShots ∈ shots) (hj : j < fractions.length) :
    Averages (fig4Dashed (fun m f => ravStdData m start f) circuits fractions shots repetitions nShots j) repetitions
      (circuits.map fun m => (stdFRav nShots D fractions[j] (1 - idealOutputProbs m start start) *
        ((D * idealOutputProbs m start start - 1) / (D - 1))) ^ 2)
      (stdFRav nShots D fractions[j] e) := by
  refine averages_mono (C109_rav hD hm start (fun m hmm => ((he.trans_le (hx m hmm)).ne')) hf hn hpos hR hK hj) ?_
  refine mean_map_le hne fun m hmm => ?_
  obtain ⟨h0, h1⟩ := hf _ (List.getElem_mem hj)
  have hle := rav_curve (K := nShots) hD h0 h1 (IsDistribution.le_one (isDistribution_ideal (hm m hmm) start) start) (hx m hmm) he
  refine Real.sqrt_le_iff.mpr ⟨Real.sqrt_nonneg _, le_trans ?_ hle⟩
  have hR1 : 0 < 1 / (repetitions : ℝ) := by
    have : (0 : ℝ) < repetitions := by exact_mod_cast hR
    positivity
  exact mul_le_of_le_one_left (sq_nonneg _) (by linarith)

/-- C109: circuits at a distance of at most `c` from the identity, as selected in the notebooks, are below the line drawn for the error
`1 - (1 - D c / 2)^2`. -/
theorem C109_compiled (hD : 1 < D) (hne : circuits ≠ []) (hm : ∀ m ∈ circuits, m.toMatrix D ∈ Matrix.unitaryGroup (Fin D) ℂ)
    (start : Fin D) {c : ℝ} (hc : ∀ m ∈ circuits, 1 - overlap 1 (m.toMatrix D) ≤ c) (hDc : D * c ≤ 2)
    (he : 1 / (D : ℝ) < (1 - D * c / 2) ^ 2)
    (hf : ∀ f ∈ fractions, 0 ≤ f ∧ f ≤ 1) (hn : shots.Nodup)
    (hpos : ∀ K ∈ shots, 0 < K) (hR : 0 < repetitions) (hK : nShots ∈ shots) (hj : j < fractions.length) :
    Averages (fig4Dashed (fun m f => ravStdData m start f) circuits fractions shots repetitions nShots j) repetitions
      (circuits.map fun m => (stdFRav nShots D fractions[j] (1 - idealOutputProbs m start start) *
        ((D * idealOutputProbs m start start - 1) / (D - 1))) ^ 2)
      (stdFRav nShots D fractions[j] (1 - (1 - D * c / 2) ^ 2)) := by
  refine C109_below_solid hD hne hm start (by rw [sub_sub_cancel]; exact he) (fun m hmm => ?_) hf hn hpos hR hK hj
  have hD0 : (0 : ℝ) < D := by exact_mod_cast lt_trans Nat.zero_lt_one hD
  have h1 := hc m hmm
  rw [overlap, Matrix.conjTranspose_one, one_mul, sub_le_comm, le_div_iff₀ hD0] at h1
  have h2 := norm_trace_le_diag (hm m hmm) start
  rw [sub_sub_cancel, idealOutputProbs_eq]
  exact pow_le_pow_left₀ (by linarith) (by linarith) 2

/-- A rotation between two of four basis states. -/
noncomputable def smallTurn : Arr :=
  Arr.ofRows [[1, 0, 0, 0], [0, 24 / 25, 7 / 25, 0], [0, -(7 / 25), 24 / 25, 0], [0, 0, 0, 1]]

/-- C109: a distance of 0.02 is not enough for the return probability 0.96 for which the solid line is drawn. -/
theorem C109_not_default :
    smallTurn.toMatrix 4 ∈ Matrix.unitaryGroup (Fin 4) ℂ ∧ 1 - overlap 1 (smallTurn.toMatrix 4) = 0.02 ∧
      idealOutputProbs smallTurn (1 : Fin 4) 1 = 0.9216 ∧ idealOutputProbs smallTurn (1 : Fin 4) 1 < 1 - epsDefault := by
  have hr : idealOutputProbs smallTurn (1 : Fin 4) 1 = 0.9216 := by
    rw [idealOutputProbs_eq]
    simp [smallTurn, Arr.toMatrix, Arr.ofRows]
    norm_num
  refine ⟨?_, ?_, hr, ?_⟩
  · rw [Matrix.mem_unitaryGroup_iff']
    ext i j
    fin_cases i <;> fin_cases j <;>
      simp [smallTurn, Arr.toMatrix, Arr.ofRows, Matrix.mul_apply, Fin.sum_univ_four, Matrix.star_apply, Complex.conj_ofNat] <;> norm_num
  · have ht : (smallTurn.toMatrix 4).trace = ((98 / 25 : ℝ) : ℂ) := by
      simp [smallTurn, Arr.toMatrix, Arr.ofRows, Matrix.trace, Fin.sum_univ_four]
      norm_num
    rw [overlap, Matrix.conjTranspose_one, one_mul, ht, Complex.norm_real, Real.norm_of_nonneg (by norm_num)]
    norm_num
  · rw [hr]
    norm_num [epsDefault]

/-- C109: a number of shots that was not simulated. -/
theorem C109_missing (experiment : Arr → ℝ → List ℕ → ℕ → PyM Rng (List ℝ)) (hK : nShots ∉ shots) (r : Rng)
    (hok : ∃ s, (circuitStds (fun m f => experiment m f shots repetitions) fractions circuits r).1 = .ok s) :
    (fig4Dashed experiment circuits fractions shots repetitions nShots j r).1 = .error .indexError := by
  obtain ⟨s, hs⟩ := hok
  have e : circuitStds (fun m f => experiment m f shots repetitions) fractions circuits r =
      (.ok s, (circuitStds (fun m f => experiment m f shots repetitions) fractions circuits r).2) := Prod.ext hs rfl
  unfold fig4Dashed
  rw [PyM.bind_of_ok e]
  unfold rawData
  rw [shots_index_none hK]
  rfl

/-- C109: the solid lines have 50 points from the first fraction to the last; each is the value of both formulas, and RAV is below
XEB. -/
theorem C109_solid {n : ℕ} (hn : 2 ≤ n) (hK : 0 < nShots) {first last : ℝ} (h0 : 0 ≤ first) (hle : first ≤ last) (h1 : last ≤ 1) :
    (fig4Solid n nShots first last).length = 50 ∧
    ((fig4Solid n nShots first last).map Prod.fst).head? = some first ∧
    ((fig4Solid n nShots first last).map Prod.fst).getLast? = some last ∧
    ∀ q ∈ fig4Solid n nShots first last, first ≤ q.1 ∧ q.1 ≤ last ∧ q.2.1 = stdFRav nShots ((2 : ℝ) ^ n) q.1 0.04 ∧
      q.2.2 = stdFXeb nShots ((2 : ℝ) ^ n) q.1 ∧ q.2.1 < q.2.2 := by
  have hfst : (fig4Solid n nShots first last).map Prod.fst = linspace first last 50 := by
    simp [fig4Solid, List.map_map, Function.comp_def]
  refine ⟨by simp [fig4Solid, linspace], ?_, ?_, fun q hq => ?_⟩
  · rw [hfst, linspace]
    simp [List.head?_range]
  · rw [hfst, linspace]
    simp only [List.getLast?_map, List.getLast?_range]
    norm_num
    ring
  · obtain ⟨l, hl, rfl⟩ := List.mem_map.mp hq
    obtain ⟨i, hi, rfl⟩ := List.mem_map.mp hl
    have hi : (i : ℝ) ≤ 49 := by
      have := List.mem_range.mp hi
      exact_mod_cast Nat.le_of_lt_succ this
    have hi0 : (0 : ℝ) ≤ i := Nat.cast_nonneg i
    set l : ℝ := first + i * ((last - first) / ((50 : ℕ) - 1)) with hldef
    have hl0 : first ≤ l := by
      rw [hldef]
      push_cast
      have : 0 ≤ (i : ℝ) * ((last - first) / (50 - 1)) := mul_nonneg hi0 (div_nonneg (by linarith) (by norm_num))
      linarith
    have hl1 : l ≤ last := by
      rw [hldef]
      push_cast
      have : (i : ℝ) * ((last - first) / (50 - 1)) ≤ 49 * ((last - first) / (50 - 1)) :=
        mul_le_mul_of_nonneg_right hi (div_nonneg (by linarith) (by norm_num))
      linarith
    have hN : (2 : ℝ) < 2 ^ n := by
      calc (2 : ℝ) < 2 ^ 2 := by norm_num
        _ ≤ 2 ^ n := pow_le_pow_right₀ (by norm_num) hn
    refine ⟨hl0, hl1, rfl, rfl, C106_below (by exact_mod_cast hK) hN (by linarith) (by linarith) ?_ ?_⟩ <;> norm_num [epsDefault]

/-- C109: figure 4 with two circuits without effect on two qubits. -/
example : ∃ vs, Averages (fig4Dashed (fun m f => ravStdData m (1 : Fin 4) f) [Arr.identity 4, Arr.identity 4] [0, 0.25, 0.5, 0.75, 1]
    [25, 50, 100, 200, 400, 800, 1600, 3200, 6400] 100 100 1) 100 vs (stdFRav (100 : ℕ) (4 : ℕ) 0.25 epsDefault) := by
  have hI : (Arr.identity 4).toMatrix 4 = 1 := by
    ext i j
    fin_cases i <;> fin_cases j <;> simp [Arr.toMatrix, Arr.identity]
  refine ⟨_, C109_below_solid (by norm_num) (by simp) (by simp [hI, one_mem]) 1 (by norm_num [epsDefault]) ?_ ?_ (by simp) (by simp)
    (by norm_num) (by simp) (by simp)⟩
  · intro m hm
    have : m = Arr.identity 4 := by simpa using hm
    rw [this, idealOutputProbs_eq, hI]
    norm_num [epsDefault]
  · intro f hf
    simp only [List.mem_cons, List.not_mem_nil, or_false] at hf
    rcases hf with rfl | rfl | rfl | rfl | rfl <;> norm_num

/-- C109: a circuit at the distance 0.02. -/
example : ∃ vs, Averages (fig4Dashed (fun m f => ravStdData m (1 : Fin 4) f) [smallTurn] [0, 1] [25, 100] 100 100 0) 100 vs
    (stdFRav (100 : ℕ) (4 : ℕ) 0 (1 - (1 - (4 : ℕ) * 0.02 / 2) ^ 2)) :=
  ⟨_, C109_compiled (by norm_num) (by simp) (by simp [C109_not_default.1]) 1 (by simpa using sub_le_iff_le_add.mp C109_not_default.2.1.le) (by norm_num) (by norm_num)
    (by simp) (by simp) (by simp) (by norm_num) (by simp) (by simp)⟩

/-- C109: a circuit that does not return with certainty, for both kinds. -/
example : ∃ vs vs' b b', Averages (fig4Dashed (fun m f => ravStdData m (1 : Fin 2) f) [sixthTurn] [0, 1] [25, 100] 100 100 0) 100 vs b ∧
    Averages (fig4Dashed (fun m f => xebStdData m (1 : Fin 2) f) [sixthTurn] [0, 1] [25, 100] 100 100 0) 100 vs' b' := by
  refine ⟨_, _, _, _, C109_rav one_lt_two (by simp [sixthTurn_unitary]) 1 (by simp [sixthTurn_probs.2]; norm_num) (by simp) (by simp) (by simp)
    (by norm_num) (by simp) (by simp), C109_xeb (by simp [sixthTurn_unitary]) 1 (by simp [sixthTurn_not_uniform]) (by simp) (by simp)
    (by simp) (by norm_num) (by simp) (by simp)⟩

/-- C109: 100 shots, eight qubits. -/
example : ∀ q ∈ fig4Solid 8 100 0 1, q.2.1 < q.2.2 := fun q hq =>
  ((C109_solid (by norm_num) (by norm_num) le_rfl zero_le_one le_rfl).2.2.2 q hq).2.2.2.2

end Stoq
