import Verif.Model.PaperBins

/-!
# Groups and their error bars   (paper/fig7/fig7.ipynb, paper/fig12/fig12.ipynb)
-/

namespace Stoq

namespace Paper

/-- `Series.unique()` of pandas: the values in the order in which they first appear. -/
noncomputable def unique (l : List ℝ) : List ℝ :=
  open Classical in l.foldl (fun seen x => if x ∈ seen then seen else seen ++ [x]) []

/-- `df[df['depolarization error'] == x_val][column]` (fig7.ipynb, cell 2) for rows of the error and the column. -/
noncomputable def group (df : List (ℝ × ℝ)) (xVal : ℝ) : List ℝ :=
  open Classical in (df.filter fun row => row.1 = xVal).map Prod.snd

/-- `Series.sem()` of pandas and `scipy.stats.sem`, for at least two values: the sum of squares is divided by one less than their
number. -/
noncomputable def sem (l : List ℝ) : ℝ := √((l.map fun y => (y - mean l) ^ 2).sum / (l.length - 1)) / √l.length

/-- The points `(x, y, yerr)` of a curve of fig7.ipynb (cell 2). -/
noncomputable def groupPoints (df : List (ℝ × ℝ)) : List (ℝ × ℝ × ℝ) :=
  let x := unique (df.map Prod.fst)
  let y := x.map fun xVal => mean (group df xVal)
  let yerr := x.map fun xVal => sem (group df xVal)
  x.zip (y.zip yerr)

end Paper

end Stoq
