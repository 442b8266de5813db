import Verif.Spec.Gates

/-!
# The phase-flip code of three qubits

A qubit `a|0⟩ + b|1⟩` is stored as `a|+++⟩ + b|−−−⟩`.  Qubit 0 is the first one, the most significant bit of an index.
-/

namespace Stoq.PhaseFlip

open Matrix Complex

/-- The amplitude of `|+⟩` (for `minus = false`) or `|−⟩` at the bit `x`. -/
noncomputable def sign (minus : Bool) (x : ℕ) : ℂ :=
  ((1 / Real.sqrt 2 : ℝ) : ℂ) * if minus = true ∧ x = 1 then -1 else 1

/-- `a|+++⟩ + b|−−−⟩`. -/
noncomputable def codeword (a b : ℂ) : Fin (2 ^ 3) → ℂ := fun c =>
  a * (sign false (qubit 3 0 c) * sign false (qubit 3 1 c) * sign false (qubit 3 2 c)) +
  b * (sign true (qubit 3 0 c) * sign true (qubit 3 1 c) * sign true (qubit 3 2 c))

/-- Phase flips of the chosen qubits. -/
noncomputable def flips (s : Fin 3 → Bool) : Matrix (Fin (2 ^ 3)) (Fin (2 ^ 3)) ℂ :=
  (if s 0 then embed 3 [0] Gate.Z else 1) * (if s 1 then embed 3 [1] Gate.Z else 1) *
    (if s 2 then embed 3 [2] Gate.Z else 1)

/-- The state `|x y⟩ ⊗ (a|0⟩ + b|1⟩)` of the three qubits. -/
def stored (x y : Bool) (a b : ℂ) : Fin (2 ^ 3) → ℂ := fun r =>
  if qubit 3 0 r = x.toNat ∧ qubit 3 1 r = y.toNat then (if qubit 3 2 r = 0 then a else b) else 0

/-- How many qubits are flipped. -/
def weight (s : Fin 3 → Bool) : ℕ := (s 0).toNat + (s 1).toNat + (s 2).toNat

/-- The probability to find the last qubit of a pure state in the state `a|0⟩ + b|1⟩`, whatever the other two are:
the fidelity of its reduced density matrix. -/
noncomputable def fidelity (a b : ℂ) (v : Fin (2 ^ 3) → ℂ) : ℝ :=
  ∑ x : Bool, ∑ y : Bool, ‖star (stored x y a b) ⬝ᵥ v‖ ^ 2

/-- The probability that exactly the qubits `s` are flipped if each one is flipped with probability `p`. -/
def flipProb (p : ℝ) (s : Fin 3 → Bool) : ℝ := ∏ k, if s k then p else 1 - p

end Stoq.PhaseFlip
