import Verif.Model.PaperSimulate
import Verif.Props.PaperFidelity
import Verif.Props.PaperFits

/-!
# C103: what the simulations of figure 5 find
-/

namespace Stoq

open Paper

variable {B : Type} {D : ℕ}

/-- C103: the argument `backend` of both functions is ignored: they always simulate with the global `noisy_backend`. -/
theorem C103_argument (run : B → List Char → Fin (D + 1) → ℝ) (noisy ideal : B) (files : List SimFile) (b b' : B) :
    simulateResultsRAV run noisy ideal files b = simulateResultsRAV run noisy ideal files b' ∧
    simulateResultsXEB run noisy ideal files b = simulateResultsXEB run noisy ideal files b' := ⟨rfl, rfl⟩

/-- C103: what is simulated is the text of the file between two line ends (with spaces after them) and nothing else: two emulators that
agree on these texts give the same entries. -/
theorem C103_text {run run' : B → List Char → Fin (D + 1) → ℝ} {noisy ideal : B} {files : List SimFile}
    (h : ∀ x ∈ files, ∀ b, run b ("\n                ".toList ++ readText x.2 ++ "\n            ".toList) =
      run' b ("\n                ".toList ++ readText x.2 ++ "\n            ".toList)) (b : B) :
    simulateResultsRAV run noisy ideal files b = simulateResultsRAV run' noisy ideal files b ∧
    simulateResultsXEB run noisy ideal files b = simulateResultsXEB run' noisy ideal files b := by
  constructor <;>
  · refine List.map_congr_left fun x hx => ?_
    dsimp only
    unfold compiledJaqal
    rw [h x hx noisy, h x hx ideal]

/-- The noise mixes the ideal output with the uniform distribution by a fraction `f` of the file. -/
def Mixes (run : B → List Char → Fin (D + 1) → ℝ) (noisy ideal : B) (files : List SimFile) (f : SimFile → ℝ) : Prop :=
  ∀ x ∈ files, run noisy (compiledJaqal (readText x.2)) = outputProbs (f x) (run ideal (compiledJaqal (readText x.2)))

/-- C103: RAV: with noise that mixes the ideal output with the uniform distribution, each file gives one entry with its own layer
count and the fraction that is left. -/
theorem C103_rav {run : B → List Char → Fin (D + 1) → ℝ} {noisy ideal : B} {files : List SimFile} {f : SimFile → ℝ}
    (h : Mixes run noisy ideal files f) (hp : ∀ x ∈ files, run ideal (compiledJaqal (readText x.2)) 0 ≠ 1 / ((D + 1 : ℕ) : ℝ)) (b : B) :
    simulateResultsRAV run noisy ideal files b = files.map fun x => ⟨x.1, getLayerCount (readText x.2), 1 - f x⟩ := by
  unfold simulateResultsRAV
  refine List.map_congr_left fun x hx => ?_
  dsimp only
  rw [h x hx, C65_rav 0 (hp x hx)]

/-- C103: XEB: the same, for outputs that are not uniform. -/
theorem C103_xeb {run : B → List Char → Fin (D + 1) → ℝ} {noisy ideal : B} {files : List SimFile} {f : SimFile → ℝ}
    (h : Mixes run noisy ideal files f)
    (hp : ∀ x ∈ files, IsDistribution (run ideal (compiledJaqal (readText x.2))) ∧ ¬ IsUniform (run ideal (compiledJaqal (readText x.2))))
    (b : B) :
    simulateResultsXEB run noisy ideal files b = files.map fun x => ⟨x.1, getLayerCount (readText x.2), 1 - f x⟩ := by
  unfold simulateResultsXEB
  refine List.map_congr_left fun x hx => ?_
  dsimp only
  rw [h x hx, C65_xeb (hp x hx).1 (hp x hx).2]

/-- C103: the points of the plot are those of the results, sorted by their layer counts. -/
theorem C103_points (rs : List SimResult) :
    (simPoints rs).Perm (rs.map fun r => ((r.layerCount : ℝ), r.successRate)) ∧ (simPoints rs).Pairwise fun p q => p.1 ≤ q.1 := by
  unfold simPoints
  refine ⟨(List.mergeSort_perm _ _).map _, ?_⟩
  rw [List.pairwise_map]
  refine (List.pairwise_mergeSort (le := fun r s : SimResult => decide (r.layerCount ≤ s.layerCount)) ?_ ?_ rs).imp fun {r s} hrs => ?_
  · intro a b c h1 h2
    simp only [decide_eq_true_eq] at h1 h2 ⊢
    omega
  · intro a b
    simp only [Bool.or_eq_true, decide_eq_true_eq]
    omega
  · simp only [decide_eq_true_eq] at hrs
    exact Nat.cast_le.mpr hrs

/-- C103: figure 5 as a whole: when every layer leaves the fraction `1 - e`, with `e` less than 1, the exponential fit of the points
finds the error `e` per layer; the fit of the bins, which the notebook makes, finds at most `e`, and less if `e` is not 0 and a bin
has circuits of different layer counts. -/
theorem C103_fit {files : List SimFile} {e : ℝ} (h0 : 0 ≤ e) (h1 : e < 1) {rs : List SimResult}
    (hrs : rs = files.map fun x => ⟨x.1, getLayerCount (readText x.2), 1 - (1 - (1 - e) ^ getLayerCount (readText x.2))⟩) :
    ((∃ x ∈ files, 0 < getLayerCount (readText x.2)) →
      ∀ a, IsFit exponentialFunc (Set.Ici 0) (simPoints rs) a ↔ errorExponential a = e) ∧
    ((∃ x ∈ xBin 6 (simPoints rs), 0 < x) → ∀ a, IsFit exponentialFunc (Set.Ici 0) (simBins rs) a →
      errorExponential a ≤ e ∧
        (e ≠ 0 → (∃ l ∈ bins 6 (simPoints rs), ∃ p ∈ l, ∃ q ∈ l, p.1 ≠ q.1) → errorExponential a < e)) := by
  have hmem : ∀ p ∈ simPoints rs, 0 ≤ p.1 ∧ p.2 = exponentialFunc p.1 (1 - e) := by
    intro p hp
    obtain ⟨r, hr, rfl⟩ := List.mem_map.mp ((C103_points rs).1.mem_iff.mp hp)
    rw [hrs] at hr
    obtain ⟨x, -, rfl⟩ := List.mem_map.mp hr
    refine ⟨Nat.cast_nonneg _, ?_⟩
    dsimp only
    unfold exponentialFunc
    rw [Real.rpow_natCast, sub_sub_cancel]
  have herr : ∀ a, errorExponential a = e ↔ a = 1 - e := fun a => by
    unfold errorExponential
    constructor <;> intro h <;> linarith
  constructor
  · rintro ⟨x, hx, hx0⟩ a
    rw [(C102_exact (a := 1 - e) (by linarith) ⟨((getLayerCount (readText x.2) : ℝ), 1 - (1 - (1 - e) ^ getLayerCount (readText x.2))), ?_, ?_⟩).1
      fun p hp => (hmem p hp).2, herr]
    · refine (C103_points rs).1.mem_iff.mpr (List.mem_map.mpr
        ⟨⟨x.1, getLayerCount (readText x.2), 1 - (1 - (1 - e) ^ getLayerCount (readText x.2))⟩, ?_, rfl⟩)
      rw [hrs]
      exact List.mem_map.mpr ⟨x, hx, rfl⟩
    · exact Nat.cast_pos.mpr hx0
  · intro hpos a ha
    have key := C102_bins (b := 6) (by norm_num) (a := 1 - e) (by linarith) (fun p hp => (hmem p hp).1) (fun p hp => (hmem p hp).2) hpos ha
    have he : errorExponential (1 - e) = e := (herr _).mpr rfl
    rw [he] at key
    exact ⟨key.1, fun hne => key.2 (fun h => hne (by linarith))⟩

/-- C103: without noise every rate is 1, and both fits of the bins find the error 0. -/
theorem C103_ideal {run : B → List Char → Fin (D + 1) → ℝ} {ideal : B} {files : List SimFile}
    (hp : ∀ x ∈ files, run ideal (compiledJaqal (readText x.2)) 0 ≠ 1 / ((D + 1 : ℕ) : ℝ)) (b : B) {rs : List SimResult}
    (hrs : rs = simulateResultsRAV run ideal ideal files b) (hpos : ∃ p ∈ simBins rs, 0 < p.1) :
    (∀ r ∈ rs, r.successRate = 1) ∧
    (∀ a, IsFit exponentialFunc (Set.Ici 0) (simBins rs) a ↔ errorExponential a = 0) ∧
    ∀ a, IsFit gaussianFunc (Set.Ici 0) (simBins rs) a → errorGaussian a = 0 := by
  have hm : Mixes run ideal ideal files fun _ => 0 := fun x _ => by
    funext k
    unfold outputProbs
    ring
  rw [C103_rav hm hp b] at hrs
  have h1 : ∀ r ∈ rs, r.successRate = 1 := fun r hr => by
    rw [hrs] at hr
    obtain ⟨x, -, rfl⟩ := List.mem_map.mp hr
    exact sub_zero 1
  have h2 : ∀ p ∈ simPoints rs, p.2 = 1 := fun p hp => by
    obtain ⟨r, hr, rfl⟩ := List.mem_map.mp ((C103_points rs).1.mem_iff.mp hp)
    exact h1 r hr
  have h3 : ∀ p ∈ simBins rs, p.2 = 1 := fun p hp => by
    obtain ⟨-, hlen, rest, hrest, -⟩ := C100_bins (b := 6) (by norm_num) (simPoints rs)
    unfold simBins at hp
    rw [show (xBin 6 (simPoints rs)).zip (yBin 6 (simPoints rs)) =
      (bins 6 (simPoints rs)).map fun l => (mean (l.map Prod.fst), mean (l.map Prod.snd)) from List.zip_map'] at hp
    obtain ⟨l, hl, rfl⟩ := List.mem_map.mp hp
    have : l.map Prod.snd = List.replicate 6 1 := by
      refine List.eq_replicate_iff.mpr ⟨by rw [List.length_map, hlen l hl], fun y hy => ?_⟩
      obtain ⟨p, hp, rfl⟩ := List.mem_map.mp hy
      refine h2 p ?_
      rw [hrest]
      exact List.mem_append_left _ (List.mem_flatten.mpr ⟨l, hl, hp⟩)
    dsimp only
    rw [this]
    norm_num [mean]
  have key := C102_exact (points := simBins rs) (a := 1) zero_le_one hpos
  refine ⟨h1, fun a => ?_, fun a ha => ?_⟩
  · rw [key.1 (fun p hp => by rw [h3 p hp, exponentialFunc, Real.one_rpow])]
    unfold errorExponential
    constructor <;> intro h <;> linarith
  · rw [(key.2 (fun p hp => by rw [h3 p hp, gaussianFunc, Real.one_rpow]) a).mp ha]
    norm_num [errorGaussian]

/-- Six files, three of one layer and three of two. -/
private def sixFiles : List SimFile :=
  List.replicate 3 ("a".toList, "MS".toList) ++ List.replicate 3 ("b".toList, "MS\nMS".toList)

private theorem count_one : getLayerCount (readText ['M', 'S']) = 1 := by decide

private theorem count_two : getLayerCount (readText ['M', 'S', '\n', 'M', 'S']) = 2 := by decide

private noncomputable def sixResults (e : ℝ) : List SimResult :=
  sixFiles.map fun x => ⟨x.1, getLayerCount (readText x.2), 1 - (1 - (1 - e) ^ getLayerCount (readText x.2))⟩

private theorem sixPoints (e : ℝ) : simPoints (sixResults e) =
    [(1, 1 - e), (1, 1 - e), (1, 1 - e), (2, (1 - e) ^ 2), (2, (1 - e) ^ 2), (2, (1 - e) ^ 2)] := by
  unfold simPoints
  rw [List.mergeSort_of_pairwise]
  · simp [sixResults, sixFiles, List.replicate, count_one, count_two]
  · simp [sixResults, sixFiles, List.replicate, count_one, count_two]

/-- C103: with an error of 1/10 per layer the six files give one bin, whose fit finds less than 1/10. -/
example {a : ℝ} (h : IsFit exponentialFunc (Set.Ici 0) (simBins (sixResults (1 / 10))) a) : errorExponential a < 1 / 10 := by
  have hb : bins 6 (simPoints (sixResults (1 / 10))) = [simPoints (sixResults (1 / 10))] := by
    rw [sixPoints]
    have hr : rangeStep 6 6 = [0] := by decide
    simp [bins, hr, slice]
  refine ((C103_fit (e := 1 / 10) (by norm_num) (by norm_num) (files := sixFiles) rfl).2 ?_ a h).2 (by norm_num) ?_
  · refine ⟨_, List.mem_map.mpr ⟨_, hb ▸ List.mem_singleton_self _, rfl⟩, ?_⟩
    rw [sixPoints]
    norm_num [mean]
  · refine ⟨_, hb ▸ List.mem_singleton_self _, (1, 1 - 1 / 10), by rw [sixPoints]; simp, (2, (1 - 1 / 10) ^ 2), by rw [sixPoints]; simp, by norm_num⟩

/-- An emulator of one qubit whose ideal result is 0 three times in four, and whose noise leaves half of it. -/
private noncomputable def halfRun (noisy : Bool) (_ : List Char) : Fin 2 → ℝ :=
  if noisy then outputProbs (1 / 2) ![3 / 4, 1 / 4] else ![3 / 4, 1 / 4]

/-- C103: both simulations find the half, whatever backend they are given. -/
example (b : Bool) : simulateResultsRAV halfRun true false sixFiles b = sixFiles.map (fun x => ⟨x.1, getLayerCount (readText x.2), 1 - 1 / 2⟩) ∧
    simulateResultsXEB halfRun true false sixFiles b = sixFiles.map fun x => ⟨x.1, getLayerCount (readText x.2), 1 - 1 / 2⟩ := by
  have hm : Mixes halfRun true false sixFiles fun _ => 1 / 2 := fun x _ => rfl
  refine ⟨C103_rav hm (fun x _ => ?_) b, C103_xeb hm (fun x _ => ⟨⟨?_, ?_⟩, ?_⟩) b⟩
  · norm_num [halfRun]
  · intro k
    fin_cases k <;> norm_num [halfRun]
  · exact (Fin.sum_univ_two _).trans (by norm_num [halfRun])
  · intro h
    have := h 0
    norm_num [halfRun] at this

/-- C103: without noise it finds 1 for every file, and the fit finds no error. -/
example {a : ℝ} (h : IsFit exponentialFunc (Set.Ici 0) (simBins (simulateResultsRAV halfRun false false sixFiles true)) a) :
    errorExponential a = 0 := by
  have hp : ∀ x ∈ sixFiles, halfRun false (compiledJaqal (readText x.2)) 0 ≠ 1 / ((1 + 1 : ℕ) : ℝ) := fun x _ => by norm_num [halfRun]
  have hm : Mixes halfRun false false sixFiles fun _ => 1 - (1 - 0) ^ 0 := fun x _ => by
    funext k
    norm_num [outputProbs]
  refine ((C103_ideal hp true rfl ?_).2.1 a).mp h
  have e : simulateResultsRAV halfRun false false sixFiles true = sixResults 0 := by
    rw [C103_rav hm hp true]
    simp [sixResults]
  rw [e]
  unfold simBins
  rw [sixPoints]
  have hr : rangeStep 6 6 = [0] := by decide
  norm_num [xBin, yBin, bins, hr, slice, mean]

/-- C103_text: two emulators that differ on the empty text only. -/
example (D : ℕ) (files : List SimFile) (b : Unit) :
    simulateResultsRAV (D := D) (fun _ t _ => if t = [] then 1 else 0) () () files b =
      simulateResultsRAV (D := D) (fun _ _ _ => 0) () () files b :=
  (C103_text (fun x _ b => by simp) b).1

end Stoq
