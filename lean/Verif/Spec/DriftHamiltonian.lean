import Verif.Spec.DriftCompile
import Verif.Spec.Hamiltonian

/-!
# Sequences for a Hamiltonian, with the clean-up of small matrix entries and rounding
-/

namespace Stoq

open Matrix

/-- The entry is, up to an error `ε`, the evolution of all qubits under `M` for the time `t`. -/
structure EvolvesNear (n : ℕ) (ε : ℝ) (suffix : String) (M : Matrix (Fin (2 ^ n)) (Fin (2 ^ n)) ℂ) (t : ℝ)
    (e : EntryVal) : Prop where
  qubits : e.applyTo = List.range n
  near : e.unitary.Near (evolution M t) ε
  name : e.unitary.operationName = "H" ++ suffix
  params : e.unitary.parameterDict = [("t", (t, false))]
  forward : e.unitary.isInverse = false

end Stoq
