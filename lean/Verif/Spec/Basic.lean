import Mathlib.LinearAlgebra.UnitaryGroup
import Mathlib.Analysis.Complex.Basic
import Verif.Model.Unitary

/-!
# Vocabulary for stating properties about operators

Only Mathlib matrices; nothing here refers to how the code computes.
-/

namespace Stoq

/-- Two matrices describe the same physical operation: equal up to a global phase. -/
def SamePhase {ι : Type*} (A B : Matrix ι ι ℂ) : Prop := ∃ c : ℂ, ‖c‖ = 1 ∧ A = c • B

/-- The `Unitary` object `u` has dimension `d` and its stored matrix is `M`. -/
def Unitary.Holds {d : ℕ} (u : Unitary) (M : Matrix (Fin d) (Fin d) ℂ) : Prop :=
  u.matrix.rows = d ∧ u.matrix.cols = d ∧ u.matrix.toMatrix d = M

/-- The array `a` is the `d × d` matrix `M`. -/
def Arr.Is {d : ℕ} (a : Arr) (M : Matrix (Fin d) (Fin d) ℂ) : Prop :=
  a.rows = d ∧ a.cols = d ∧ a.toMatrix d = M

/-- A `Unitary` object as produced by the library from exactly unitary data: square of positive size,
unitary, determinant one. -/
def Unitary.Exact (u : Unitary) (d : ℕ) : Prop :=
  0 < d ∧ u.matrix.rows = d ∧ u.matrix.cols = d ∧
    u.matrix.toMatrix d ∈ Matrix.specialUnitaryGroup (Fin d) ℂ

/-- Normalised overlap `|tr(A† B)| / d`. -/
noncomputable def overlap {d : ℕ} (A B : Matrix (Fin d) (Fin d) ℂ) : ℝ :=
  ‖(A.conjTranspose * B).trace‖ / d

end Stoq
