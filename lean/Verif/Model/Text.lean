import Mathlib.Analysis.SpecialFunctions.Trigonometric.Basic
import Verif.Model.Sequence

/-!
# Text output of unitaries and sequences

`fmt k v` stands for `str(round(v, k))`; number formatting is a parameter of the model.
-/

namespace Stoq

open World

namespace Unitary

/-- `apply_to_qubits` (unitary.py:139-142, 170-173): all qubits when `apply_to` is empty. -/
def textQubits (u : Unitary) : List ℕ :=
  if u.applyTo.length = 0 then List.range (intLog2 u.getDimension) else u.applyTo

/-- `get_jaqal` (unitary.py:121-146). -/
def getJaqal (fmt : ℕ → ℝ → String) (u : Unitary) : String :=
  u.operationName ++ " " ++ " ".intercalate (u.textQubits.map (fun q => "q[" ++ toString q ++ "]")) ++ " "
    ++ " ".intercalate (u.parameterDict.map (fun kv => fmt 7 kv.2.1))

/-- `get_qasm` (unitary.py:148-177). -/
noncomputable def getQasm (fmt : ℕ → ℝ → String) (u : Unitary) : String :=
  let parameters :=
    if u.parameterDict.length > 0 then
      "(" ++ ",".intercalate (u.parameterDict.map (fun kv =>
        if kv.2.2 then "pi*" ++ fmt 7 (kv.2.1 / Real.pi) else fmt 7 kv.2.1)) ++ ")"
    else ""
  u.operationName ++ parameters ++ "\t"
    ++ ",".intercalate (u.textQubits.map (fun q => "q[" ++ toString q ++ "]")) ++ ";"

/-- `get_display_name` (unitary.py:179-204). -/
noncomputable def getDisplayName (fmt : ℕ → ℝ → String) (u : Unitary) : String :=
  u.operationName
    ++ (if u.applyTo.length > 0 then "[" ++ ", ".intercalate (u.applyTo.map toString) ++ "]" else "")
    ++ (if u.parameterDict.length > 0 then
          "(" ++ ", ".intercalate (u.parameterDict.map (fun kv =>
            kv.1 ++ "=" ++ (if kv.2.2 then fmt 3 (kv.2.1 / Real.pi) ++ "π" else fmt 4 kv.2.1))) ++ ")"
        else "")
    ++ (if u.isInverse then "†" else "")

end Unitary

namespace Seq

/-- `[f(entry.get_full_unitary(self.get_dimension())) for entry in self.sequence_entries]`. -/
noncomputable def textLines (τ : Arith) (f : Unitary → String) (dimension : ℕ) :
    List Ref → PyM World (List String)
  | [] => pure []
  | e :: es => do
    let u ← Entry.getFullUnitary τ e dimension
    let rest ← textLines τ f dimension es
    return f u :: rest

/-- The common shape of the three text methods: header, then the lines joined by newlines. -/
noncomputable def textOutput (τ : Arith) (header : String) (f : Unitary → String) (self : SRef) :
    PyM World String := do
  let s ← getSeq self
  let lines ← textLines τ f s.dimension s.entries
  return header ++ "\n".intercalate lines

/-- `get_jaqal` (unitary_sequence.py:267-279). -/
noncomputable def getJaqal (τ : Arith) (fmt : ℕ → ℝ → String) (self : SRef) : PyM World String :=
  textOutput τ "// JAQAL generated from UnitarySequence.get_jaqal()\n" (Unitary.getJaqal fmt) self

/-- `get_qasm` (unitary_sequence.py:281-293). -/
noncomputable def getQasm (τ : Arith) (fmt : ℕ → ℝ → String) (self : SRef) : PyM World String :=
  textOutput τ "# QASM generated from UnitarySequence.get_qasm()\n" (Unitary.getQasm fmt) self

/-- `get_display_output` (unitary_sequence.py:295-305). -/
noncomputable def getDisplayOutput (τ : Arith) (fmt : ℕ → ℝ → String) (self : SRef) : PyM World String :=
  textOutput τ "# Generated from UnitarySequence.get_display_output()\n" (Unitary.getDisplayName fmt) self

end Seq

end Stoq
