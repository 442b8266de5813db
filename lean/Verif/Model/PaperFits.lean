import Verif.Model.PaperBins
import Mathlib.Analysis.SpecialFunctions.Pow.Real

/-!
# The fits of the paper's notebooks
-/

namespace Stoq

namespace Paper

/-- `exponential_func` (fig5.ipynb, cell 1, fig8a.ipynb, fig8b.ipynb, cell 9, fig9a.ipynb, fig9b.ipynb, cell 7, fig9cd.ipynb, cell 8),
for `0 ≤ x` and `0 ≤ alpha`. -/
noncomputable def exponentialFunc (x alpha : ℝ) : ℝ := alpha ^ x

/-- `gaussian_func` (same cells, and fig8cd.ipynb, cell 3), for `0 ≤ alpha`. -/
noncomputable def gaussianFunc (x alpha : ℝ) : ℝ := alpha ^ (x ^ 2)

/-- `func_exponential` of fig12.ipynb (cell 3); `c` is `random_unitary_cost`. -/
noncomputable def funcExponential (c x b : ℝ) : ℝ := c * (1 - Real.exp (-b * x))

/-- The sum of the squared residuals, which `curve_fit` of SciPy minimises. -/
noncomputable def sumSq (f : ℝ → ℝ → ℝ) (points : List (ℝ × ℝ)) (a : ℝ) : ℝ :=
  (points.map fun p => (f p.1 a - p.2) ^ 2).sum

/-- `a` may be what `curve_fit(f, x, y)` returns: it has the smallest sum of squared residuals among the values in `S`.  SciPy
promises only a local minimum, found from 1, and may raise an error. -/
def IsFit (f : ℝ → ℝ → ℝ) (S : Set ℝ) (points : List (ℝ × ℝ)) (a : ℝ) : Prop :=
  a ∈ S ∧ ∀ b ∈ S, sumSq f points a ≤ sumSq f points b

/-- `error_per_layer` of the exponential fit (fig5.ipynb, cell 2). -/
def errorExponential (alpha : ℝ) : ℝ := 1 - alpha

/-- `error_per_layer` of the Gaussian fit (fig5.ipynb, cell 2), and `rav_error_rates`, `xeb_error_rates` (fig8cd.ipynb, cells 5 and
7); `nan` if `alpha` is more than 1, here 0. -/
noncomputable def errorGaussian (alpha : ℝ) : ℝ := √(1 - alpha)

/-- `reduced_chi_square` (fig5.ipynb, cell 2, fig8a.ipynb, fig8b.ipynb, cell 9, fig9a.ipynb, fig9b.ipynb, cell 7) of bins
`(x, y, stderr)` for a fit with one parameter. -/
noncomputable def reducedChiSquare (f : ℝ → ℝ → ℝ) (bins : List (ℝ × ℝ × ℝ)) (a : ℝ) : ℝ :=
  let chiSquare := (bins.map fun b => (b.2.1 - f b.1 a) ^ 2 / b.2.2 ^ 2).sum
  let dof := (bins.length : ℝ) - 1
  chiSquare / dof

end Paper

end Stoq
