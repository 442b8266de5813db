import Mathlib.Logic.Equiv.Fin.Basic
import Verif.Spec.Drift
import Verif.Spec.PaperNoise

/-!
# The meaning of JAQAL programs

A program is a list of statements, each naming a native gate, the qubits it acts on and its arguments.
-/

namespace Stoq

namespace Jaqal

/-- A statement. -/
structure Statement where
  name : String
  qubits : List ℕ
  values : List ℝ

/-- How a statement is written; `fmt v` is the text of a number. -/
def Statement.line (fmt : ℝ → String) (s : Statement) : String :=
  s.name ++ " " ++ " ".intercalate (s.qubits.map fun q => "q[" ++ toString q ++ "]") ++ " "
    ++ " ".intercalate (s.values.map fmt)

/-- The native gates: `R q axis_angle rotation_angle`, `Rx q angle`, `Ry q angle`, `Rz q angle` and
`MS q q axis_angle rotation_angle`. -/
noncomputable def Statement.gate (s : Statement) : Option Gate :=
  match s.qubits, s.values with
  | [q], [φ, θ] => if s.name = "R" then some ⟨[q], Noise.turn φ θ⟩ else none
  | [q], [θ] =>
    if s.name = "Rx" then some ⟨[q], Gate.rot Gate.X θ⟩
    else if s.name = "Ry" then some ⟨[q], Gate.rot Gate.Y θ⟩
    else if s.name = "Rz" then some ⟨[q], Gate.rot Gate.Z θ⟩
    else none
  | [q, r], [φ, θ] =>
    if s.name = "MS" then some ⟨[q, r], (Noise.turn2 φ θ).submatrix (finProdFinEquiv (m := 2) (n := 2)).symm
      (finProdFinEquiv (m := 2) (n := 2)).symm⟩
    else none
  | _, _ => none

/-- What a program does to a register of `n` qubits; nothing if it is not a valid program. -/
noncomputable def meaning (n : ℕ) : List Statement → Option (Matrix (Fin (2 ^ n)) (Fin (2 ^ n)) ℂ)
  | [] => some 1
  | s :: ss =>
    if s.qubits.Nodup ∧ ∀ q ∈ s.qubits, q < n then do
      let g ← s.gate
      let U ← meaning n ss
      return U * g.op n
    else none

/-- The second program is the first with numbers changed by at most `δ`. -/
def Near (δ : ℝ) (ss ss' : List Statement) : Prop :=
  List.Forall₂ (fun s s' => s.name = s'.name ∧ s.qubits = s'.qubits ∧
    List.Forall₂ (fun v v' => |v - v'| ≤ δ) s.values s'.values) ss ss'

end Jaqal

end Stoq
