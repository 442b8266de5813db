import Verif.Model.Num
import Mathlib.Analysis.CStarAlgebra.Matrix
import Mathlib.LinearAlgebra.UnitaryGroup

/-!
# Rounding errors

What floating-point arithmetic is assumed to achieve: an absolute error per matrix entry, for the matrices that occur
in the library, which are nearly unitary.
-/

namespace Stoq

open scoped Matrix.Norms.L2Operator

/-- A square array of dimension `d` and norm at most 1.1. -/
structure Arr.Small (a : Arr) (d : ℕ) : Prop where
  rows : a.rows = d
  cols : a.cols = d
  norm : ‖a.toMatrix d‖ ≤ 1.1

/-- On nearly unitary matrices of dimension at most `D` the computed entries are within `e` of the exact ones. -/
structure Arith.Rounds (τ : Arith) (D : ℕ) (e : ℝ) : Prop where
  /-- `a @ b` -/
  mul : ∀ d ≤ D, ∀ a b : Arr, a.Small d → b.Small d → ∀ i < d, ∀ j < d, ‖τ.mul a b i j - (a.matmul b).val i j‖ ≤ e
  /-- `np.kron(a, b)` -/
  kron : ∀ d d' : ℕ, d * d' ≤ D → ∀ a b : Arr, a.Small d → b.Small d' → ∀ i < d * d', ∀ j < d * d',
    ‖τ.kronecker a b i j - (a.kron b).val i j‖ ≤ e
  /-- The matrix of balanced phase is a multiple of the matrix by a root of `1 / det`; which root is chosen is left
  open, for next to the branch cut it depends on the rounding of the determinant. -/
  balance : ∀ d ≤ D, ∀ a : Arr, a.Small d → (∃ V ∈ Matrix.unitaryGroup (Fin d) ℂ, ‖a.toMatrix d - V‖ ≤ 1 / 100) →
    ∃ z : ℂ, z ^ d = 1 / a.det ∧ ∀ i < d, ∀ j < d, ‖τ.balance d a i j - z * a.val i j‖ ≤ e
  /-- `1 - np.abs(np.trace(a)) / d` -/
  distance : ∀ d ≤ D, ∀ a : Arr, a.Small d → |τ.distance d a - (1 - ‖a.trace‖ / d)| ≤ e
  /-- Gate matrices, for angles that are not astronomically large. -/
  entries : ∀ d ≤ D, ∀ (name : String) (args : List ℝ) (a : Arr), (∀ x ∈ args, |x| ≤ 100) → a.Small d →
    ∀ i < d, ∀ j < d, ‖τ.entries name args a i j - a.val i j‖ ≤ e
  /-- `expm(1j * h * t)`, for exponents that are not astronomically large. -/
  evolution : ∀ d ≤ D, ∀ (h a : Arr) (x : ℝ), |x| * ‖h.toMatrix d‖ ≤ 100 → a.Small d →
    ∀ i < d, ∀ j < d, ‖τ.evolution h x a i j - a.val i j‖ ≤ e
  /-- Products of zeros and ones are exact. -/
  one_mul : ∀ d ≤ D, ∀ i < d, ∀ j < d, τ.mul (Arr.identity d) (Arr.identity d).ct i j = (Arr.identity d).val i j
  /-- The identity has determinant one and is left alone. -/
  one_balance : ∀ d ≤ D, τ.balance d (Arr.identity d) = (Arr.identity d).val

/-- The clean-up threshold and twice the rounding error of matrices of dimension at most `D` add up to at most `t`. -/
structure Arith.Accurate (τ : Arith) (D : ℕ) (t : ℝ) : Prop where
  nonneg : 0 ≤ τ.tau
  rounds : ∃ e, 0 ≤ e ∧ τ.tau + 2 * e ≤ t ∧ τ.Rounds D e

end Stoq
