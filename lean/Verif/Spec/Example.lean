import Verif.Model.Example
import Verif.Spec.Compile
import Verif.Spec.Gates

/-! # What the reports of the example notebook say -/

namespace Stoq.Example

/-- The report belongs to these gates on `n` qubits, found for the target `T` in at most `m` steps: the number of gates,
their distance from the target, the number of steps, and the text with one line for each gate.  A search that stops early
has reached the target within `10⁻⁸`.  A step adds at most one gate. -/
structure Printed.Describes (n : ℕ) (T : Matrix (Fin (2 ^ n)) (Fin (2 ^ n)) ℂ) (fmt : ℕ → ℝ → String) (m : ℕ) (P : Printed)
    (gates : List EntryVal) : Prop where
  length : P.length = gates.length
  cost : P.finalCost = 1 - overlap T (circuit n gates)
  nonneg : 0 ≤ P.finalCost
  le_one : P.finalCost ≤ 1
  steps_pos : 0 < P.steps
  steps_le : P.steps ≤ m
  early : P.steps < m → P.finalCost ≤ 1 / 100000000
  short : gates.length ≤ P.steps
  qasm : P.qasm = TextKind.text .qasm fmt gates

/-- A gate of the notebook: a rotation about an axis in the plane of X and Y on one of the two qubits, or a rotation
about XX on both, in one of the two orders, with angles between 0 and 2π. -/
def Native (v : EntryVal) : Prop :=
  (∃ θ φ q, θ ∈ Set.Icc 0 (2 * Real.pi) ∧ φ ∈ Set.Icc 0 (2 * Real.pi) ∧ q < 2 ∧ v.applyTo = [q] ∧
    v.unitary.Holds (d := 2) (Gate.rot ((Real.cos φ : ℂ) • Gate.X + (Real.sin φ : ℂ) • Gate.Y) θ) ∧
    v.unitary.operationName = "Rxy" ∧ v.unitary.parameterDict = [("theta", (θ, true)), ("phi", (φ, true))]) ∨
  (∃ θ i j, θ ∈ Set.Icc 0 (2 * Real.pi) ∧ (i = 0 ∧ j = 1 ∨ i = 1 ∧ j = 0) ∧ v.applyTo = [i, j] ∧
    v.unitary.Holds (d := 4) (Gate.rot Gate.XX (2 * θ)) ∧ v.unitary.operationName = "XX" ∧
    v.unitary.parameterDict = [("theta", (θ, true))])

end Stoq.Example
