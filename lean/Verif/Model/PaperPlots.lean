import Mathlib.Data.Real.Basic
import Verif.Model.Py

/-!
# Cost curves of the paper   (paper/fig10/fig10.ipynb cell 3, paper/fig12/fig12.ipynb cell 3)

The lines that average the recorded costs of compilations for the plots.  The two notebooks contain the same lines, with
`bucket_size = 200` in fig10 and `bucket_size = 50` in fig12.  `nan` is `none`.  Rounding is not modelled.
-/

namespace Stoq

namespace Paper

/-- `np.mean` of a list of numbers: `nan` (with a warning) for the empty list, and `nan` if a `nan` is among the numbers. -/
noncomputable def npMean (l : List (Option ℝ)) : Option ℝ :=
  if l = [] then none else l.foldr (fun a acc => do return (← a) + (← acc)) (some 0) |>.map (· / l.length)

/-- `x = np.arange(0, len(result.cost_by_step), bucket_size)`: `ceil(len / bucket_size)` numbers; a step of zero raises. -/
def bucketStarts (len bucketSize : ℕ) : Except PyErr (List ℕ) :=
  if bucketSize = 0 then .error .zeroDivision
  else .ok ((List.range ((len + bucketSize - 1) / bucketSize)).map (· * bucketSize))

/-- `costs = [np.mean(result.cost_by_step[i:i+bucket_size-1]) for i in x]`.  The slice is `take` after `drop` because
`i` and `i+bucket_size-1` are not negative. -/
noncomputable def bucketCosts (bucketSize : ℕ) (costByStep : List ℝ) : Except PyErr (List (Option ℝ)) := do
  let x ← bucketStarts costByStep.length bucketSize
  return x.map fun i => npMean (((costByStep.take (i + bucketSize - 1)).drop i).map some)

/-- `costs_avg = np.mean(all_costs, 0)`: the mean of every column.  Rows of different lengths do not form an array of
numbers, which raises.  For no rows at all numpy returns the single number `nan`, which is not a list; the model raises. -/
noncomputable def costsAvg (allCosts : List (List (Option ℝ))) : Except PyErr (List (Option ℝ)) :=
  match allCosts with
  | [] => .error .valueError
  | r :: rs =>
    if ∀ s ∈ rs, s.length = r.length then
      .ok ((List.range r.length).map fun k => npMean ((r :: rs).map fun s => s.getD k none))
    else .error .valueError

/-- The curves of one panel: one list of bucket means per result, and their average. -/
noncomputable def costCurves (bucketSize : ℕ) (results : List (List ℝ)) :
    Except PyErr (List (List (Option ℝ)) × List (Option ℝ)) := do
  let allCosts ← results.mapM (bucketCosts bucketSize)
  let avg ← costsAvg allCosts
  return (allCosts, avg)

end Paper

end Stoq
