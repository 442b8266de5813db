import Verif.Model.PaperCount
import Verif.Model.PaperFits

/-!
# The simulations of figure 5   (paper/fig5/fig5.ipynb)
-/

namespace Stoq

namespace Paper

/-- An entry of `output_data`. -/
structure SimResult where
  fileName : List Char
  layerCount : ℕ
  successRate : ℝ

/-- A file of `dir_name` as `simulate_results_RAV` and `simulate_results_XEB` use it: its path and what it contains. -/
abbrev SimFile := List Char × List Char

/-- `compiled_jaqal`: the text of the file between line ends and spaces. -/
def compiledJaqal (text : List Char) : List Char :=
  "\n                ".toList ++ text ++ "\n            ".toList

variable {B : Type} {D : ℕ}

/-- `simulate_results_RAV` (cell 1) without printing and without writing the result; an error in any file is raised again and
ends it, so that only complete runs are modelled.  `run` is `run_jaqal_circuit(parse_jaqal_string(text), backend)` with the
probabilities of the results; `noisyBackend` and `idealBackend` are global variables, `backend` is the argument. -/
noncomputable def simulateResultsRAV (run : B → List Char → Fin (D + 1) → ℝ) (noisyBackend idealBackend : B)
    (files : List SimFile) (_backend : B) : List SimResult :=
  files.map fun (name, contents) =>
    let jaqal := compiledJaqal (readText contents)
    let noisy := run noisyBackend jaqal
    let ideal := run idealBackend jaqal
    { fileName := name
      layerCount := getLayerCount (readText contents)
      successRate := Paper.successRate (D + 1) (noisy 0) (ideal 0) }

/-- `simulate_results_XEB` (cell 1), in the same way. -/
noncomputable def simulateResultsXEB (run : B → List Char → Fin (D + 1) → ℝ) (noisyBackend idealBackend : B)
    (files : List SimFile) (_backend : B) : List SimResult :=
  files.map fun (name, contents) =>
    let jaqal := compiledJaqal (readText contents)
    let noisy := run noisyBackend jaqal
    let ideal := run idealBackend jaqal
    { fileName := name
      layerCount := getLayerCount (readText contents)
      successRate := xebFidelity ideal noisy }

/-- The points of cell 2: `sorted_results` by the layer count (the order of equal counts is kept), then `x` and `y`. -/
noncomputable def simPoints (results : List SimResult) : List (ℝ × ℝ) :=
  (results.mergeSort fun r s => r.layerCount ≤ s.layerCount).map fun r => ((r.layerCount : ℝ), r.successRate)

/-- What cell 2 fits: `x_bin` and `y_bin` with `bin_size = 6`. -/
noncomputable def simBins (results : List SimResult) : List (ℝ × ℝ) :=
  (xBin 6 (simPoints results)).zip (yBin 6 (simPoints results))

end Paper

end Stoq
