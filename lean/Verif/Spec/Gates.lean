import Mathlib.Analysis.SpecialFunctions.Trigonometric.Basic
import Mathlib.LinearAlgebra.Matrix.Notation
import Mathlib.Analysis.Normed.Algebra.MatrixExponential
import Verif.Spec.Embed

/-!
# Textbook gates

Mathlib matrices only, in the usual computational basis with qubit 0 most significant.
-/

namespace Stoq

open Complex

namespace Gate

/-- Pauli X. -/
def X : Matrix (Fin 2) (Fin 2) ℂ := !![0, 1; 1, 0]

/-- Pauli Y. -/
noncomputable def Y : Matrix (Fin 2) (Fin 2) ℂ := !![0, -I; I, 0]

/-- Pauli Z. -/
def Z : Matrix (Fin 2) (Fin 2) ℂ := !![1, 0; 0, -1]

/-- Hadamard gate. -/
noncomputable def H : Matrix (Fin 2) (Fin 2) ℂ := ((1 / Real.sqrt 2 : ℝ) : ℂ) • (X + Z)

/-- T gate. -/
noncomputable def T : Matrix (Fin 2) (Fin 2) ℂ := !![1, 0; 0, exp (Real.pi / 4 * I)]

/-- Rotation by the angle `θ` generated by `P`: `exp(-i θ/2 P)` when `P² = 1`. -/
noncomputable def rot {ι : Type*} [DecidableEq ι] (P : Matrix ι ι ℂ) (θ : ℝ) : Matrix ι ι ℂ :=
  (Real.cos (θ / 2) : ℂ) • (1 : Matrix ι ι ℂ) - (I * (Real.sin (θ / 2) : ℂ)) • P

/-- `X ⊗ X`: both bits are flipped. -/
def XX : Matrix (Fin 4) (Fin 4) ℂ := fun r c =>
  if r.val / 2 = 1 - c.val / 2 ∧ r.val % 2 = 1 - c.val % 2 then 1 else 0

/-- Controlled not: `|a b⟩ ↦ |a, a ⊕ b⟩`. -/
def CNOT : Matrix (Fin 4) (Fin 4) ℂ := fun r c =>
  if r.val / 2 = c.val / 2 ∧ r.val % 2 = (c.val / 2 + c.val) % 2 then 1 else 0

/-- Toffoli gate: `|a b c⟩ ↦ |a, b, c ⊕ ab⟩`. -/
def CCNOT : Matrix (Fin 8) (Fin 8) ℂ := fun r c =>
  if r.val / 2 = c.val / 2 ∧ r.val % 2 = (c.val / 4 * (c.val / 2 % 2) + c.val) % 2 then 1 else 0

/-- Hadamard gates on all three qubits: the Walsh-Hadamard transform. -/
noncomputable def H3 : Matrix (Fin 8) (Fin 8) ℂ := fun r c =>
  ((1 / Real.sqrt 8 : ℝ) : ℂ) * (-1) ^ (qubit 3 0 r * qubit 3 0 c + qubit 3 1 r * qubit 3 1 c + qubit 3 2 r * qubit 3 2 c)

/-- Decoder of the three-qubit phase-flip code: Hadamard gates, controlled nots from the last qubit to the other
two, and a Toffoli gate onto the last qubit. -/
noncomputable def phaseFlip : Matrix (Fin 8) (Fin 8) ℂ :=
  CCNOT * embed 3 [2, 0] CNOT * embed 3 [2, 1] CNOT * H3

/-- The generator of the global Mølmer-Sørensen gate: the sum of `X_i X_j` over all pairs of qubits. -/
def pairSum (n : ℕ) : Matrix (Fin (2 ^ n)) (Fin (2 ^ n)) ℂ :=
  ∑ i ∈ Finset.range n, ∑ j ∈ Finset.Ioo i n, embed n [i] X * embed n [j] X

/-- The global Mølmer-Sørensen gate `exp(-i θ Σ_{i<j} X_i X_j)`. -/
noncomputable def GMS (n : ℕ) (θ : ℝ) : Matrix (Fin (2 ^ n)) (Fin (2 ^ n)) ℂ :=
  NormedSpace.exp ((-I * θ) • pairSum n)

end Gate

end Stoq
