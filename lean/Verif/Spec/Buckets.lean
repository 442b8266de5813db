import Mathlib.Algebra.BigOperators.Intervals
import Mathlib.Data.Real.Basic

/-!
# Means over buckets

What a curve of bucket means should show.  Independent of the model.
-/

namespace Stoq

/-- The mean of `f` over the steps from `a` to before `b`. -/
noncomputable def meanOver (f : ℕ → ℝ) (a b : ℕ) : ℝ := (∑ j ∈ Finset.Ico a b, f j) / ((b : ℝ) - a)

end Stoq
