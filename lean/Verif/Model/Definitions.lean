import Mathlib.Analysis.SpecialFunctions.Trigonometric.Basic
import Mathlib.Analysis.Normed.Algebra.MatrixExponential
import Verif.Model.Entry
import Verif.Model.Parameterized

/-!
# class UnitaryDefinitions and class ParameterizedUnitaryDefinitions
(stoqcompiler/unitary/unitary_definitions.py, parameterized_unitary_definitions.py)
-/

namespace Stoq

open Complex in
/-- Convert a Mathlib matrix back to an array. -/
def Arr.ofMatrix {n : ℕ} (m : Matrix (Fin n) (Fin n) ℂ) : Arr :=
  ⟨n, n, fun i j => if h : i < n ∧ j < n then m ⟨i, h.1⟩ ⟨j, h.2⟩ else 0⟩

/-- The exact exponential of a square array. -/
noncomputable def Arr.expm (a : Arr) : Arr := Arr.ofMatrix (NormedSpace.exp (a.toMatrix a.rows))

/-- The check `np.allclose(h, h.T.conj())` (unitary_definitions.py:282, hamiltonian_term.py:30).
For a non-square array the code raises as well, in numpy broadcasting or in `expm`; the model requires
a square shape here. -/
def Arr.IsHermitianClose (h : Arr) : Prop := h.rows = h.cols ∧ allclose h h.ct

namespace UnitaryDefinitions

open Complex

/-- Matrix literal of `rx` (unitary_definitions.py:28-31). -/
noncomputable def rxMatrix (θ : ℝ) : Arr := Arr.ofRows
  [[(Real.cos (θ / 2) : ℂ), -I * (Real.sin (θ / 2) : ℂ)],
   [-I * (Real.sin (θ / 2) : ℂ), (Real.cos (θ / 2) : ℂ)]]

/-- `rx` (unitary_definitions.py:15-31). -/
noncomputable def rx (τ : Arith) (θ : ℝ) : Except PyErr Unitary :=
  Unitary.new τ 2 (some (τ.gate "rx" [θ] (rxMatrix θ))) (some "Rx") (some [("θ", (θ, true))])

/-- Matrix literal of `ry` (unitary_definitions.py:46-49). -/
noncomputable def ryMatrix (θ : ℝ) : Arr := Arr.ofRows
  [[(Real.cos (θ / 2) : ℂ), -(Real.sin (θ / 2) : ℂ)],
   [(Real.sin (θ / 2) : ℂ), (Real.cos (θ / 2) : ℂ)]]

/-- `ry` (unitary_definitions.py:33-49). -/
noncomputable def ry (τ : Arith) (θ : ℝ) : Except PyErr Unitary :=
  Unitary.new τ 2 (some (τ.gate "ry" [θ] (ryMatrix θ))) (some "Ry") (some [("θ", (θ, true))])

/-- Matrix literal of `rphi` (unitary_definitions.py:69-74). -/
noncomputable def rphiMatrix (θ φ : ℝ) : Arr := Arr.ofRows
  [[(Real.cos (θ / 2) : ℂ), exp (-I * (Real.pi / 2 + φ)) * (Real.sin (θ / 2) : ℂ)],
   [exp (-I * (Real.pi / 2 - φ)) * (Real.sin (θ / 2) : ℂ), (Real.cos (θ / 2) : ℂ)]]

/-- `rphi` (unitary_definitions.py:51-74). -/
noncomputable def rphi (τ : Arith) (θ φ : ℝ) : Except PyErr Unitary :=
  Unitary.new τ 2 (some (τ.gate "rphi" [θ, φ] (rphiMatrix θ φ))) (some "R") (some [("θ", (θ, true)), ("Φ", (φ, true))])

/-- Matrix literal of `rz` (unitary_definitions.py:89-92). -/
noncomputable def rzMatrix (θ : ℝ) : Arr := Arr.ofRows
  [[exp (-I * θ / 2), 0], [0, exp (I * θ / 2)]]

/-- `rz` (unitary_definitions.py:76-92). -/
noncomputable def rz (τ : Arith) (θ : ℝ) : Except PyErr Unitary :=
  Unitary.new τ 2 (some (τ.gate "rz" [θ] (rzMatrix θ))) (some "Rz") (some [("θ", (θ, true))])

/-- `h` (unitary_definitions.py:94-104). -/
noncomputable def h (τ : Arith) : Except PyErr Unitary := do
  let ry ← ry τ (Real.pi / 2)
  let h ← (← rz τ Real.pi).leftMultiply τ ry
  Unitary.new τ h.getDimension (some h.getMatrix) (some "H")

/-- `t` (unitary_definitions.py:106-115). -/
noncomputable def t (τ : Arith) : Except PyErr Unitary := do
  let t ← rz τ (Real.pi / 4)
  Unitary.new τ t.getDimension (some t.getMatrix) (some "T")

/-- `sigmax` (unitary_definitions.py:117-126). -/
noncomputable def sigmax (τ : Arith) : Except PyErr Unitary := do
  let rx ← rx τ Real.pi
  Unitary.new τ rx.getDimension (some rx.getMatrix) (some "X")

/-- `sigmay` (unitary_definitions.py:128-137). -/
noncomputable def sigmay (τ : Arith) : Except PyErr Unitary := do
  let ry ← ry τ Real.pi
  Unitary.new τ ry.getDimension (some ry.getMatrix) (some "Y")

/-- `sigmaz` (unitary_definitions.py:139-148). -/
noncomputable def sigmaz (τ : Arith) : Except PyErr Unitary := do
  let rz ← rz τ Real.pi
  Unitary.new τ rz.getDimension (some rz.getMatrix) (some "Z")

/-- Matrix literal of `cnot` (unitary_definitions.py:160-164). -/
def cnotMatrix : Arr := Arr.ofRows
  [[1, 0, 0, 0],
   [0, 1, 0, 0],
   [0, 0, 0, 1],
   [0, 0, 1, 0]]

/-- `cnot` (unitary_definitions.py:150-164). -/
noncomputable def cnot (τ : Arith) : Except PyErr Unitary :=
  Unitary.new τ 4 (some cnotMatrix) (some "CNOT")

/-- Matrix literal of `ccnot` (unitary_definitions.py:176-184). -/
def ccnotMatrix : Arr := Arr.ofRows
  [[1, 0, 0, 0, 0, 0, 0, 0],
   [0, 1, 0, 0, 0, 0, 0, 0],
   [0, 0, 1, 0, 0, 0, 0, 0],
   [0, 0, 0, 1, 0, 0, 0, 0],
   [0, 0, 0, 0, 1, 0, 0, 0],
   [0, 0, 0, 0, 0, 1, 0, 0],
   [0, 0, 0, 0, 0, 0, 0, 1],
   [0, 0, 0, 0, 0, 0, 1, 0]]

/-- `ccnot` (unitary_definitions.py:166-184). -/
noncomputable def ccnot (τ : Arith) : Except PyErr Unitary :=
  Unitary.new τ 8 (some ccnotMatrix) (some "CCNOT")

/-- Integer literal of `qecc_phase_flip` (unitary_definitions.py:197-205). -/
def qeccSigns : Arr := Arr.ofRows
  [[1, 1, 1, 1, 1, 1, 1, 1],
   [1, -1, -1, 1, -1, 1, 1, -1],
   [1, 1, -1, -1, 1, 1, -1, -1],
   [1, -1, 1, -1, -1, 1, -1, 1],
   [1, 1, 1, 1, -1, -1, -1, -1],
   [1, -1, -1, 1, 1, -1, -1, 1],
   [1, -1, 1, -1, 1, -1, 1, -1],
   [1, 1, -1, -1, -1, -1, 1, 1]]

/-- Matrix of `qecc_phase_flip` (unitary_definitions.py:197-205). -/
noncomputable def qeccMatrix : Arr := Arr.smul ((1 / Real.sqrt 8 : ℝ) : ℂ) qeccSigns

/-- `qecc_phase_flip` (unitary_definitions.py:186-205). -/
noncomputable def qeccPhaseFlip (τ : Arith) : Except PyErr Unitary :=
  Unitary.new τ 8 (some (τ.gate "qecc_phase_flip" [] qeccMatrix)) (some "QECC")

/-- Matrix literal of `xx` (unitary_definitions.py:223-228). -/
noncomputable def xxMatrix (θ : ℝ) : Arr := Arr.ofRows
  [[(Real.cos θ : ℂ), 0, 0, -I * (Real.sin θ : ℂ)],
   [0, (Real.cos θ : ℂ), -I * (Real.sin θ : ℂ), 0],
   [0, -I * (Real.sin θ : ℂ), (Real.cos θ : ℂ), 0],
   [-I * (Real.sin θ : ℂ), 0, 0, (Real.cos θ : ℂ)]]

/-- `xx` (unitary_definitions.py:207-228). -/
noncomputable def xx (τ : Arith) (θ : ℝ := Real.pi / 4) : Except PyErr Unitary :=
  Unitary.new τ 4 (some (τ.gate "xx" [θ] (xxMatrix θ))) (some "XX") (some [("θ", (θ, true))])

/-- The index pairs of the comprehension in `gms` (unitary_definitions.py:252). -/
def gmsPairs (n : ℕ) : List (ℕ × ℕ) :=
  (List.range n).flatMap (fun i => (List.range' (i + 1) (n - (i + 1))).map (fun j => (i, j)))

/-- One element of `local_unitaries` in `gms` (unitary_definitions.py:250-251); the entry object is fresh,
so its cache is empty. -/
noncomputable def gmsLocal (τ : Arith) (n : ℕ) (θ : ℝ) (ij : ℕ × ℕ) : Except PyErr Unitary := do
  let e ← EntryVal.new (← xx τ θ) [(ij.1 : ℤ), (ij.2 : ℤ)]
  e.fullUnitary τ (2 ^ n)

/-- `gms` (unitary_definitions.py:230-258). -/
noncomputable def gms (τ : Arith) (n : ℕ) (θ : ℝ := Real.pi / 4) : Except PyErr Unitary := do
  let locals_ ← (gmsPairs n).mapM (gmsLocal τ n θ)
  let global ← locals_.foldlM (fun acc u => acc.leftMultiply τ u) (← Unitary.identity τ (2 ^ n))
  Unitary.new τ (2 ^ n) (some global.getMatrix) (some ("GMS" ++ toString n)) (some [("θ", (θ, true))])

/-- `time_evolution` (unitary_definitions.py:260-289): `expm(1j * h_matrix * t)`. -/
noncomputable def timeEvolution (τ : Arith) (h : Arr) (t : ℝ) (suffix : String := "") :
    Except PyErr Unitary := do
  assertE h.IsHermitianClose
  Unitary.new τ h.rows (some (τ.evolved h t (Arr.expm ((h.smul I).smul (t : ℂ))))) (some ("H" ++ suffix))
    (some [("t", (t, false))])

end UnitaryDefinitions

namespace ParamDefinitions

open Complex

/-- `ParameterizedUnitaryParameter(name, 0, 2 * np.pi, is_angle=True)`. -/
noncomputable def angle (name : String) : Except PyErr Parameter := Parameter.new name 0 (2 * Real.pi) true

/-- `rotation_xy` (parameterized_unitary_definitions.py:16-42).  Calling the matrix function with the wrong
number of arguments is a TypeError. -/
noncomputable def rotationXY (τ : Arith) : Except PyErr ParamUnitary := do
  let theta ← angle "theta"
  let phi ← angle "phi"
  ParamUnitary.new 2
    (fun vs => match vs with
      | [θ, φ] => do return (← UnitaryDefinitions.rphi τ θ φ).getMatrix
      | _ => .error .typeError)
    [theta, phi] "Rxy"

/-- Matrix of `rotation_xyz` (parameterized_unitary_definitions.py:60-64). -/
noncomputable def rotationXYZMatrix (α β γ : ℝ) : Arr := Arr.ofRows
  [[(Real.cos (β / 2) : ℂ) * exp (-I * (α + γ) / 2), -(Real.sin (β / 2) : ℂ) * exp (-I * (α - γ) / 2)],
   [(Real.sin (β / 2) : ℂ) * exp (I * (α - γ) / 2), (Real.cos (β / 2) : ℂ) * exp (I * (α + γ) / 2)]]

/-- `rotation_xyz` (parameterized_unitary_definitions.py:44-76). -/
noncomputable def rotationXYZ (τ : Arith) : Except PyErr ParamUnitary := do
  let alpha ← angle "alpha"
  let beta ← angle "beta"
  let gamma ← angle "gamma"
  ParamUnitary.new 2
    (fun vs => match vs with
      | [α, β, γ] => .ok (τ.gate "rotation_xyz" [α, β, γ] (rotationXYZMatrix α β γ))
      | _ => .error .typeError)
    [alpha, beta, gamma] "Rxyz"

/-- `xx` (parameterized_unitary_definitions.py:78-101). -/
noncomputable def xx (τ : Arith) : Except PyErr ParamUnitary := do
  let theta ← angle "theta"
  ParamUnitary.new (2 ^ 2)
    (fun vs => match vs with
      | [θ] => do return (← UnitaryDefinitions.xx τ θ).getMatrix
      | _ => .error .typeError)
    [theta] "XX"

/-- `gms` (parameterized_unitary_definitions.py:103-132). -/
noncomputable def gms (τ : Arith) (n : ℕ) : Except PyErr ParamUnitary := do
  let theta ← angle "theta"
  ParamUnitary.new (2 ^ n)
    (fun vs => match vs with
      | [θ] => do return (← UnitaryDefinitions.gms τ n θ).getMatrix
      | _ => .error .typeError)
    [theta] ("GMS" ++ toString n)

/-- `time_evolution` (parameterized_unitary_definitions.py:134-178). -/
noncomputable def timeEvolution (τ : Arith) (h : Arr) (tMin tMax : ℝ) (suffix : String := "") :
    Except PyErr ParamUnitary := do
  assertE h.IsHermitianClose
  assertE (tMin ≤ tMax)
  let t ← Parameter.new "t" tMin tMax false
  ParamUnitary.new h.rows
    (fun vs => match vs with
      | [t] => do return (← UnitaryDefinitions.timeEvolution τ h t suffix).getMatrix
      | _ => .error .typeError)
    [t] ("H" ++ suffix)

end ParamDefinitions

end Stoq
