import Verif.Spec.Universal

/-!
# Gates with parameters
-/

namespace Stoq

/-- As many values as parameters, each in the range of its parameter. -/
def ParamUnitary.Admits (pu : ParamUnitary) (values : List ℝ) : Prop :=
  values.length = pu.parameters.length ∧
    ∀ qv ∈ pu.parameters.zip values, qv.1.minValue ≤ qv.2 ∧ qv.2 ≤ qv.1.maxValue

/-- The elements of the matrix depend continuously on the parameter values, up to a phase of the matrix. -/
def ParamUnitary.Continuous (pu : ParamUnitary) : Prop :=
  ∀ values, pu.Admits values → ∀ ε > 0, ∃ η > 0, ∀ values', pu.Admits values' →
    List.Forall₂ (fun x y => |y - x| ≤ η) values values' → ∀ a a', pu.parameterizedMatrix values = .ok a →
      pu.parameterizedMatrix values' = .ok a' →
        ∃ c : ℂ, ‖c‖ = 1 ∧ ∀ i < pu.dimension, ∀ j < pu.dimension, ‖a'.val i j - c * a.val i j‖ ≤ ε

/-- The gate is fixed or depends continuously on its parameters, up to a phase. -/
def Primitive.Continuous (p : Primitive) : Prop :=
  match p.unitary with
  | .inl _ => True
  | .inr pu => pu.Continuous

/-- The primitive can be chosen: it can be placed somewhere, and its weight is positive, if there are weights. -/
def Selectable (prims : List Primitive) (probs : Option (List ℝ)) (q : Primitive) : Prop :=
  ∃ i : ℕ, (placeable prims)[i]? = some q ∧ ∀ p, probs = some p → ∀ x, p[i]? = some x → 0 < x

/-- The gate can be drawn: it is the gate of a primitive that can be chosen, or its gate for parameter values in their
ranges without the upper ends (which a random number below 1 does not reach), on qubits where it may be placed. -/
def CanDraw (n : ℕ) (prims : List Primitive) (probs : Option (List ℝ)) (v : EntryVal) : Prop :=
  ∃ q, Selectable prims probs q ∧
    (match q.unitary with
      | .inl u => v.unitary = u
      | .inr pu => ∃ values : List ℝ, values.length = pu.parameters.length ∧
        (∀ qv ∈ pu.parameters.zip values, qv.1.minValue ≤ qv.2 ∧
          (qv.2 < qv.1.maxValue ∨ qv.1.maxValue = qv.1.minValue ∧ qv.2 = qv.1.minValue)) ∧
        pu.asUnitary 0 values = .ok v.unitary) ∧
    q.Acts n v.applyTo ∧ v.applyTo.Nodup ∧ 2 ^ v.applyTo.length = v.unitary.getDimension ∧ v.applyTo ≠ []

/-- The gates come in groups, one for each primitive, with the number of gates requested. -/
def Grouped (P : Primitive → EntryVal → Prop) : List (Primitive × ℤ) → List (List EntryVal) → Prop :=
  List.Forall₂ fun pc gs => gs.length = pc.2.toNat ∧ ∀ v ∈ gs, P pc.1 v

/-- The layer can be drawn: the requested number of gates of each primitive, in some order. -/
def CanDrawLayer (n : ℕ) (counts : List (Primitive × ℤ)) (l : List EntryVal) : Prop :=
  ∃ groups, Grouped (fun p v => CanDraw n [p] none v) counts groups ∧ l.Perm groups.flatten

end Stoq
