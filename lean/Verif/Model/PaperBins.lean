import Verif.Model.PaperFidelity

/-!
# Runs and bins of the measured data   (paper/fig8, paper/fig9, notebooks)
-/

namespace Stoq

namespace Paper

/-- `l[i:j]` for `0 ≤ i` and `0 ≤ j`. -/
def slice {α : Type} (l : List α) (i j : ℕ) : List α := (l.take j).drop i

/-- The probabilities `rav_run_probs[:, circuit_idx, result_idx]` (fig8a.ipynb and fig8b.ipynb, cell 4), from the shots
`rav_shot_data[circuit_idx, result_idx]`: one for each run. -/
noncomputable def runProbs (shotsPerRun : ℕ) (shots : List ℝ) : List ℝ :=
  let runCount := shots.length / shotsPerRun
  (List.range runCount).map fun runIdx => mean (slice shots (shotsPerRun * runIdx) (shotsPerRun * (runIdx + 1)))

/-- What `np.array(total_layer_counts).argsort()` returns: the indices in an order that sorts the numbers; nothing is said
about the order of indices of equal numbers. -/
def IsArgsort {n : ℕ} (counts : Fin n → ℕ) (order : List (Fin n)) : Prop :=
  order.Perm (List.finRange n) ∧ (order.map counts).Pairwise (· ≤ ·)

/-- `all_points` (fig8a.ipynb, fig8b.ipynb, cell 9, and fig9a.ipynb, fig9b.ipynb, cell 7): `rates` is `all_success_rates`, a row
for each run, and `order` the result of `argsort`. -/
noncomputable def allPoints {n : ℕ} (counts : Fin n → ℕ) (rates : List (Fin n → ℝ)) (order : List (Fin n)) : List (ℝ × ℝ) :=
  let sortedRates := rates.map fun row => order.map row
  let sortedCounts := (List.ofFn counts).mergeSort (· ≤ ·)
  (sortedCounts.zipIdx.map fun (x, i) => sortedRates.map fun row => ((x : ℝ), row.getD i 0)).flatten

/-- `range(0, stop, step)` for `0 < step`. -/
def rangeStep (stop step : ℕ) : List ℕ := (List.range ((stop + step - 1) / step)).map (· * step)

/-- The slices `all_points[i:i+bin_size]` for `i in range(0, n_points-(n_points%bin_size), bin_size)` (same cells). -/
def bins {α : Type} (binSize : ℕ) (points : List α) : List (List α) :=
  let nPoints := points.length
  (rangeStep (nPoints - nPoints % binSize) binSize).map fun i => slice points i (i + binSize)

/-- `np.std`. -/
noncomputable def std (l : List ℝ) : ℝ := √(mean (l.map fun y => (y - mean l) ^ 2))

/-- `x_bin` (same cells). -/
noncomputable def xBin (binSize : ℕ) (points : List (ℝ × ℝ)) : List ℝ := (bins binSize points).map fun b => mean (b.map Prod.fst)

/-- `y_bin` (same cells). -/
noncomputable def yBin (binSize : ℕ) (points : List (ℝ × ℝ)) : List ℝ := (bins binSize points).map fun b => mean (b.map Prod.snd)

/-- `y_bin_stderr` (same cells). -/
noncomputable def yBinStderr (binSize : ℕ) (points : List (ℝ × ℝ)) : List ℝ :=
  (bins binSize points).map fun b => std (b.map Prod.snd) / √binSize

end Paper

end Stoq
