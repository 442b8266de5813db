import Mathlib.Algebra.BigOperators.Group.Finset.Basic
import Mathlib.Data.Fintype.BigOperators
import Mathlib.Data.Real.Basic

/-!
# Probability distributions over measurement outcomes
-/

namespace Stoq

/-- A probability distribution over the outcomes `0, …, D - 1`. -/
def IsDistribution {D : ℕ} (p : Fin D → ℝ) : Prop := (∀ x, 0 ≤ p x) ∧ ∑ x, p x = 1

/-- All outcomes have the same probability. -/
def IsUniform {D : ℕ} (p : Fin D → ℝ) : Prop := ∀ x, p x = 1 / D

/-- Mean of a function of the outcome. -/
def expect {D : ℕ} (q a : Fin D → ℝ) : ℝ := ∑ x, q x * a x

/-- The variance of the ideal probability of the outcome of one shot, measured with the probabilities `q`. -/
def shotVariance {D : ℕ} (q ideal : Fin D → ℝ) : ℝ :=
  expect q (fun x => ideal x ^ 2) - expect q ideal ^ 2

end Stoq
