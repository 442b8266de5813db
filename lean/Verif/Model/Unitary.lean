import Verif.Model.Num

/-!
# class Unitary   (stoqcompiler/unitary/unitary.py)

`Unitary` objects are never mutated by the library, so they are values.
-/

namespace Stoq

/-- A display parameter dictionary `Dict[str, Tuple[float, bool]]`, in insertion order. -/
abbrev ParamDict := List (String × (ℝ × Bool))

/-- Attributes of a `Unitary` object (unitary.py:56-82). -/
structure Unitary where
  matrix : Arr
  operationName : String
  parameterDict : ParamDict
  isInverse : Bool
  applyTo : List ℕ

namespace Unitary

/-- `Unitary.__init__` (unitary.py:34-82).  `isinstance` assertions are discharged by typing.
`dimension` is a natural number (negative ints fail the same first assertion as 0).
Where numpy would divide by a zero determinant (possible only for inputs that pass the tolerance check and
are singular) the model reports `nonFinite`. -/
noncomputable def new (τ : Arith) (dimension : ℕ) (matrix : Option Arr := none)
    (operationName : Option String := none) (parameterDict : Option ParamDict := none)
    (isInverse : Bool := false) (applyTo : List ℕ := []) : Except PyErr Unitary := do
  assertE (dimension > 0)
  let matrix := matrix.getD (Arr.identity dimension)
  let operationName := operationName.getD "U"
  let parameterDict := parameterDict.getD []
  -- clean up very small values
  let matrix := matrix.clean τ.tau
  -- verify that the matrix is unitary
  assertE (matrix.rows = dimension ∧ matrix.cols = dimension)
  assertE (allclose (τ.matmul matrix matrix.ct) (Arr.identity dimension))
  -- balance the global phase
  raiseUnless (matrix.det ≠ 0) .nonFinite
  let matrix := τ.balanced dimension matrix
  return { matrix, operationName, parameterDict, isInverse, applyTo }

/-- `Unitary.identity` (unitary.py:84-96). -/
noncomputable def identity (τ : Arith) (dimension : ℕ) : Except PyErr Unitary :=
  new τ dimension (some (Arr.identity dimension)) (some "I")

/-- `Unitary.random` (unitary.py:98-110); `sample` is the matrix returned by
`scipy.stats.unitary_group.rvs(dimension)`. -/
noncomputable def random (τ : Arith) (dimension : ℕ) (sample : Arr) : Except PyErr Unitary :=
  new τ dimension (some sample)

/-- `Unitary.get_dimension` (unitary.py:206-214). -/
def getDimension (u : Unitary) : ℕ := u.matrix.rows

/-- `Unitary.get_matrix` (unitary.py:216-223). -/
def getMatrix (u : Unitary) : Arr := u.matrix

/-- `Unitary.get_operation_name` (unitary.py:112-119). -/
def getOperationName (u : Unitary) : String := u.operationName

/-- `Unitary.get_parameter_value` (unitary.py:225-241). -/
def getParameterValue (u : Unitary) (key : String) : Option (ℝ × Bool) :=
  (u.parameterDict.find? (fun kv => kv.1 == key)).map (·.2)

/-- `Unitary.inverse` (unitary.py:243-254). -/
noncomputable def inverse (τ : Arith) (u : Unitary) : Except PyErr Unitary :=
  new τ u.getDimension (some u.getMatrix.ct) (some u.getOperationName) (some u.parameterDict)
    (!u.isInverse) u.applyTo

/-- `Unitary.tensor` (unitary.py:256-277). -/
noncomputable def tensor (τ : Arith) (u v : Unitary) : Except PyErr Unitary :=
  new τ (v.getDimension * u.getDimension) (some (τ.kron u.getMatrix v.getMatrix))
    (some (u.getOperationName ++ "--" ++ v.getOperationName)) (some u.parameterDict) false u.applyTo

/-- `Unitary.distance_from` (unitary.py:305-327), on the matrix of the argument (the method accepts a
`Unitary` or a bare array). -/
noncomputable def distanceFromArr (τ : Arith) (u : Unitary) (v : Arr) : Except PyErr ℝ := do
  assertE (v.rows = u.getDimension ∧ v.cols = u.getDimension)
  let selfDagU := τ.matmul (← u.inverse τ).getMatrix v
  return τ.distance u.getDimension selfDagU

/-- `Unitary.distance_from` on a `Unitary` argument (unitary.py:318-319). -/
noncomputable def distanceFrom (τ : Arith) (u v : Unitary) : Except PyErr ℝ :=
  u.distanceFromArr τ v.getMatrix

/-- `Unitary.close_to` (unitary.py:279-303). -/
noncomputable def closeToArr (τ : Arith) (u : Unitary) (v : Arr) (threshold : Option ℝ := none) :
    Except PyErr Bool := do
  let distance ← u.distanceFromArr τ v
  match threshold with
  | some t => return (open Classical in decide (distance ≤ 1 - t))
  | none => return (open Classical in decide (isclose distance 0))

/-- `Unitary.close_to` on a `Unitary` argument. -/
noncomputable def closeTo (τ : Arith) (u v : Unitary) (threshold : Option ℝ := none) : Except PyErr Bool :=
  u.closeToArr τ v.getMatrix threshold

/-- `Unitary.left_multiply` (unitary.py:329-342). -/
noncomputable def leftMultiply (τ : Arith) (u factor : Unitary) : Except PyErr Unitary := do
  assertE (u.getDimension = factor.getDimension)
  new τ u.getDimension (some (τ.matmul factor.getMatrix u.getMatrix))

/-- `Unitary.right_multiply` (unitary.py:344-357). -/
noncomputable def rightMultiply (τ : Arith) (u factor : Unitary) : Except PyErr Unitary := do
  assertE (u.getDimension = factor.getDimension)
  new τ u.getDimension (some (τ.matmul u.getMatrix factor.getMatrix))

end Unitary

end Stoq
