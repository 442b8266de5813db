import Mathlib.LinearAlgebra.Matrix.Kronecker
import Mathlib.LinearAlgebra.Matrix.PosDef
import Mathlib.Analysis.Complex.Order
import Verif.Spec.Gates

/-!
# Noisy gates as maps of density matrices
-/

namespace Stoq

namespace Noise

open Matrix Complex
open scoped ComplexOrder

/-- A density matrix. -/
def IsState {κ : Type} [Fintype κ] (ρ : Matrix κ κ ℂ) : Prop := ρ.PosSemidef ∧ ρ.trace = 1

/-- One qubit loses its state with probability `1 - d`: it is replaced by the maximally mixed state. -/
noncomputable def mix (d : ℝ) (ρ : Matrix (Fin 2) (Fin 2) ℂ) : Matrix (Fin 2) (Fin 2) ℂ :=
  (d : ℂ) • ρ + ((1 - d : ℝ) : ℂ) • (ρ.trace / 2) • (1 : Matrix (Fin 2) (Fin 2) ℂ)

/-- The state of the second of two qubits. -/
def second (ρ : Matrix (Fin 2 × Fin 2) (Fin 2 × Fin 2) ℂ) : Matrix (Fin 2) (Fin 2) ℂ := fun r c =>
  ∑ a, ρ (a, r) (a, c)

/-- The state of the first of two qubits. -/
def first (ρ : Matrix (Fin 2 × Fin 2) (Fin 2 × Fin 2) ℂ) : Matrix (Fin 2) (Fin 2) ℂ := fun r c =>
  ∑ b, ρ (r, b) (c, b)

/-- The first of two qubits loses its state with probability `1 - d`. -/
noncomputable def mixFirst (d : ℝ) (ρ : Matrix (Fin 2 × Fin 2) (Fin 2 × Fin 2) ℂ) :
    Matrix (Fin 2 × Fin 2) (Fin 2 × Fin 2) ℂ :=
  (d : ℂ) • ρ + ((1 - d : ℝ) : ℂ) • kroneckerMap (· * ·) ((1 / 2 : ℂ) • (1 : Matrix (Fin 2) (Fin 2) ℂ)) (second ρ)

/-- The second of two qubits loses its state with probability `1 - d`. -/
noncomputable def mixSecond (d : ℝ) (ρ : Matrix (Fin 2 × Fin 2) (Fin 2 × Fin 2) ℂ) :
    Matrix (Fin 2 × Fin 2) (Fin 2 × Fin 2) ℂ :=
  (d : ℂ) • ρ + ((1 - d : ℝ) : ℂ) • kroneckerMap (· * ·) (first ρ) ((1 / 2 : ℂ) • (1 : Matrix (Fin 2) (Fin 2) ℂ))

/-- The Pauli matrix of the axis at the angle `φ` in the x-y plane. -/
noncomputable def axis (φ : ℝ) : Matrix (Fin 2) (Fin 2) ℂ :=
  (Real.cos φ : ℂ) • Gate.X + (Real.sin φ : ℂ) • Gate.Y

/-- Rotation of one qubit about that axis. -/
noncomputable def turn (φ θ : ℝ) : Matrix (Fin 2) (Fin 2) ℂ := Gate.rot (axis φ) θ

/-- Mølmer-Sørensen rotation of two qubits. -/
noncomputable def turn2 (φ θ : ℝ) : Matrix (Fin 2 × Fin 2) (Fin 2 × Fin 2) ℂ :=
  Gate.rot (kroneckerMap (· * ·) (axis φ) (axis φ)) θ

/-- The Pauli coordinates of an operator on one qubit. -/
noncomputable def coords (ρ : Matrix (Fin 2) (Fin 2) ℂ) : Fin 4 → ℝ :=
  ![ρ.trace.re, (Gate.X * ρ).trace.re, (Gate.Y * ρ).trace.re, (Gate.Z * ρ).trace.re]

/-- Identity and Pauli matrices. -/
noncomputable def letter : Fin 4 → Matrix (Fin 2) (Fin 2) ℂ := ![1, Gate.X, Gate.Y, Gate.Z]

/-- The Pauli coordinates of an operator on two qubits. -/
noncomputable def coords2 (ρ : Matrix (Fin 2 × Fin 2) (Fin 2 × Fin 2) ℂ) (i : Fin 4 × Fin 4) : ℝ :=
  (kroneckerMap (· * ·) (letter i.1) (letter i.2) * ρ).trace.re

/-- The steps of a one-qubit circuit: a rotation about an axis in the x-y plane, a rotation about the z axis, or
waiting. -/
inductive Step where
  | R (φ θ : ℝ)
  | Rz (θ : ℝ)
  | wait (t : ℝ)

/-- What a step does to an ideal qubit. -/
noncomputable def Step.ideal : Step → Matrix (Fin 2) (Fin 2) ℂ
  | .R φ θ => turn φ θ
  | .Rz θ => Gate.rot Gate.Z θ
  | .wait _ => 1

/-- How long a step takes: rotations by `π/2` take one unit of time, rotations about the z axis no time. -/
noncomputable def Step.duration : Step → ℝ
  | .R _ θ => 2 * |θ| / Real.pi
  | .Rz _ => 0
  | .wait t => t

/-- The product of the steps of a circuit, the first step rightmost. -/
def inOrder {α : Type} [Mul α] [One α] (f : Step → α) : List Step → α
  | [] => 1
  | s :: ss => inOrder f ss * f s

/-- The state `|0⟩⟨0|`. -/
def ground : Matrix (Fin 2) (Fin 2) ℂ := !![1, 0; 0, 0]

end Noise

end Stoq
