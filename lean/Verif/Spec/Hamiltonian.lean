import Mathlib.Analysis.Normed.Algebra.MatrixExponential
import Mathlib.Analysis.Complex.Basic
import Mathlib.LinearAlgebra.Matrix.Hermitian
import Verif.Model.Hamiltonian
import Verif.Spec.Basic

/-! # Time evolution -/

namespace Stoq

open Complex Matrix

/-- Evolution under `H` for the time `t`, with the sign convention of the library: `exp(i H t)`. -/
noncomputable def evolution {d : ℕ} (H : Matrix (Fin d) (Fin d) ℂ) (t : ℝ) : Matrix (Fin d) (Fin d) ℂ :=
  NormedSpace.exp ((I * t) • H)

/-- The absolute values of the eigenvalues of `M`. -/
def absEigenvalues {d : ℕ} (M : Matrix (Fin d) (Fin d) ℂ) : Set ℝ :=
  {x | ∃ (z : ℂ) (v : Fin d → ℂ), v ≠ 0 ∧ M *ᵥ v = z • v ∧ x = ‖z‖}

/-- The largest absolute value of an eigenvalue of `M`. -/
noncomputable def maxAbsEigenvalue {d : ℕ} (M : Matrix (Fin d) (Fin d) ℂ) : ℝ := sSup (absEigenvalues M)

/-- The singular values of `M`. -/
def singularValues {d : ℕ} (M : Matrix (Fin d) (Fin d) ℂ) : Set ℝ :=
  {s | 0 ≤ s ∧ ∃ v : Fin d → ℂ, v ≠ 0 ∧ (Mᴴ * M) *ᵥ v = ((s ^ 2 : ℝ) : ℂ) • v}

/-- `H` is a Hamiltonian object on `n` qubits made by the constructors from Hermitian matrices `Ms`. -/
def Hamiltonian.Of {n : ℕ} (Ms : List (Matrix (Fin (2 ^ n)) (Fin (2 ^ n)) ℂ)) (H : Hamiltonian) : Prop :=
  ∃ (arrs : List Arr) (terms : List HamiltonianTerm), List.Forall₂ (fun a M => a.Is M ∧ M.IsHermitian) arrs Ms ∧
    List.Forall₂ (fun a t => HamiltonianTerm.new a = .ok t) arrs terms ∧ Hamiltonian.new terms = .ok H

/-- The entry evolves all `n` qubits under `M` for the time `t`, up to a global phase, and is labelled so. -/
structure Evolves (n : ℕ) (suffix : String) (M : Matrix (Fin (2 ^ n)) (Fin (2 ^ n)) ℂ) (t : ℝ) (e : EntryVal) : Prop where
  qubits : e.applyTo = List.range n
  exact : e.unitary.Exact (2 ^ n)
  phase : SamePhase (e.unitary.matrix.toMatrix (2 ^ n)) (evolution M t)
  name : e.unitary.operationName = "H" ++ suffix
  params : e.unitary.parameterDict = [("t", (t, false))]
  forward : e.unitary.isInverse = false

/-- The index drawn with the probabilities `p` by the number `u` of `[0,1)`: the one whose interval of the cumulative
sums contains `u`. -/
def ChosenBy (p : List ℝ) (u : ℝ) (i : ℕ) : Prop :=
  i < p.length ∧ (p.take i).sum ≤ u * p.sum ∧ u * p.sum < (p.take (i + 1)).sum

end Stoq
