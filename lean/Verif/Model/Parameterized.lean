import Verif.Model.Unitary
import Verif.Model.Rng

/-!
# Parameterised unitaries and primitives
(parameterized_unitary_parameter.py, parameterized_unitary.py, unitary_primitive.py)
-/

namespace Stoq

/-- Attributes of `ParameterizedUnitaryParameter` (parameterized_unitary_parameter.py:34-37). -/
structure Parameter where
  name : String
  minValue : ℝ
  maxValue : ℝ
  isAngle : Bool

namespace Parameter

/-- `ParameterizedUnitaryParameter.__init__` (parameterized_unitary_parameter.py:21-37). -/
noncomputable def new (name : String) (minValue maxValue : ℝ) (isAngle : Bool) :
    Except PyErr Parameter := do
  assertE (name ≠ "")
  assertE (maxValue ≥ minValue)
  return { name, minValue, maxValue, isAngle }

/-- `is_valid` (parameterized_unitary_parameter.py:57-71). -/
def IsValid (p : Parameter) (v : ℝ) : Prop := v ≥ p.minValue ∧ v ≤ p.maxValue

/-- `random_value` (parameterized_unitary_parameter.py:73-82). -/
noncomputable def randomValue (p : Parameter) : PyM Rng ℝ := do
  let r ← Rng.randomSample
  return r * (p.maxValue - p.minValue) + p.minValue

end Parameter

/-- Attributes of `ParameterizedUnitary` (parameterized_unitary.py:47-50).  The Python callable is a
function on value lists that may raise. -/
structure ParamUnitary where
  dimension : ℕ
  parameterizedMatrix : List ℝ → Except PyErr Arr
  parameters : List Parameter
  operationName : String

/-- `d[k] = v` on an insertion-ordered dictionary. -/
def dictSet (d : ParamDict) (k : String) (v : ℝ × Bool) : ParamDict :=
  if d.any (fun kv => kv.1 == k) then d.map (fun kv => if kv.1 == k then (k, v) else kv)
  else d ++ [(k, v)]

namespace ParamUnitary

/-- `ParameterizedUnitary.__init__` (parameterized_unitary.py:29-50). -/
noncomputable def new (dimension : ℕ) (parameterizedMatrix : List ℝ → Except PyErr Arr)
    (parameters : List Parameter) (operationName : String) : Except PyErr ParamUnitary := do
  assertE (dimension > 0)
  return { dimension, parameterizedMatrix, parameters, operationName }

/-- `as_unitary` (parameterized_unitary.py:82-108).  Indexing `parameters[i]` for a surplus value and
`parameter_values[i]` for a missing value raises IndexError. -/
noncomputable def asUnitary (τ : Arith) (pu : ParamUnitary) (values : List ℝ) : Except PyErr Unitary := do
  raiseUnless (values.length ≤ pu.parameters.length) .indexError
  assertE (∀ pv ∈ pu.parameters.zip values, pv.1.IsValid pv.2)
  raiseUnless (pu.parameters.length ≤ values.length) .indexError
  let parameterDict :=
    (pu.parameters.zip values).foldl (fun d pv => dictSet d pv.1.name (pv.2, pv.1.isAngle)) []
  let matrix ← pu.parameterizedMatrix values
  Unitary.new τ pu.dimension (some matrix) (some pu.operationName) (some parameterDict)

end ParamUnitary

/-- Attributes of `UnitaryPrimitive` (unitary_primitive.py:42-43); the operation is a `Unitary` or a
`ParameterizedUnitary`. -/
structure Primitive where
  unitary : Unitary ⊕ ParamUnitary
  allowedApplyTo : Option (List (List ℤ))

namespace Primitive

/-- `get_unitary().get_dimension()` for either kind. -/
def getDimension (p : Primitive) : ℕ :=
  match p.unitary with
  | .inl u => u.getDimension
  | .inr pu => pu.dimension

/-- `UnitaryPrimitive.__init__` (unitary_primitive.py:22-43).  `np.min([])` raises ValueError. -/
noncomputable def new (unitary : Unitary ⊕ ParamUnitary) (allowed : Option (List (List ℤ)) := none) :
    Except PyErr Primitive := do
  let prim : Primitive := { unitary, allowedApplyTo := allowed }
  match allowed with
  | none => return prim
  | some lists => do
    assertE (∀ l ∈ lists, l.Nodup)
    assertE (∀ l ∈ lists, 2 ^ l.length = prim.getDimension)
    raiseUnless (∀ l ∈ lists, l ≠ []) .valueError
    assertE (∀ l ∈ lists, ∀ a ∈ l, 0 ≤ a)
    return prim

end Primitive

end Stoq
