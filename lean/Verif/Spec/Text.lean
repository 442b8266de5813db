import Mathlib.Analysis.SpecialFunctions.Trigonometric.Basic
import Verif.Model.Text
import Verif.Spec.Sequence

/-!
# What the text outputs should contain

The line printed for one gate, from its name, its parameters (name, value, is an angle) and its qubits.
`fmt k v` is `str(round(v, k))`.
-/

namespace Stoq

/-- `name q[..] q[..] value value`. -/
def jaqalLine (fmt : ℕ → ℝ → String) (name : String) (params : List (String × (ℝ × Bool))) (qubits : List ℕ) : String :=
  name ++ " " ++ " ".intercalate (qubits.map fun q => "q[" ++ toString q ++ "]") ++ " "
    ++ " ".intercalate (params.map fun p => fmt 7 p.2.1)

/-- `name(value,value)<tab>q[..],q[..];`, angles as multiples of pi. -/
noncomputable def qasmLine (fmt : ℕ → ℝ → String) (name : String) (params : List (String × (ℝ × Bool)))
    (qubits : List ℕ) : String :=
  name ++ (if params = [] then "" else "(" ++ ",".intercalate (params.map fun p =>
      if p.2.2 then "pi*" ++ fmt 7 (p.2.1 / Real.pi) else fmt 7 p.2.1) ++ ")")
    ++ "\t" ++ ",".intercalate (qubits.map fun q => "q[" ++ toString q ++ "]") ++ ";"

/-- `name[q, q](param=value, param=value)`, angles as multiples of pi. -/
noncomputable def displayLine (fmt : ℕ → ℝ → String) (name : String) (params : List (String × (ℝ × Bool)))
    (qubits : List ℕ) : String :=
  name ++ "[" ++ ", ".intercalate (qubits.map toString) ++ "]"
    ++ (if params = [] then "" else "(" ++ ", ".intercalate (params.map fun p => p.1 ++ "=" ++
      (if p.2.2 then fmt 3 (p.2.1 / Real.pi) ++ "π" else fmt 4 p.2.1)) ++ ")")

/-- The three text methods of `UnitarySequence`. -/
inductive TextKind where
  | jaqal
  | qasm
  | display

/-- Call the text method. -/
noncomputable def TextKind.call (k : TextKind) (τ : Arith) (fmt : ℕ → ℝ → String) (s : ℕ) : PyM World String :=
  match k with
  | .jaqal => Seq.getJaqal τ fmt s
  | .qasm => Seq.getQasm τ fmt s
  | .display => Seq.getDisplayOutput τ fmt s

/-- The header of the text. -/
def TextKind.header : TextKind → String
  | .jaqal => "// JAQAL generated from UnitarySequence.get_jaqal()\n"
  | .qasm => "# QASM generated from UnitarySequence.get_qasm()\n"
  | .display => "# Generated from UnitarySequence.get_display_output()\n"

/-- The line specified for a gate. -/
noncomputable def TextKind.line (k : TextKind) (fmt : ℕ → ℝ → String) (e : EntryVal) : String :=
  match k with
  | .jaqal => jaqalLine fmt e.unitary.operationName e.unitary.parameterDict e.applyTo
  | .qasm => qasmLine fmt e.unitary.operationName e.unitary.parameterDict e.applyTo
  | .display => displayLine fmt e.unitary.operationName e.unitary.parameterDict e.applyTo

/-- The specified text for a list of gates. -/
noncomputable def TextKind.text (k : TextKind) (fmt : ℕ → ℝ → String) (es : List EntryVal) : String :=
  k.header ++ "\n".intercalate (es.map (k.line fmt))

end Stoq
