import Mathlib.Logic.Relation
import Verif.Spec.Compile
import Verif.Spec.Draws

/-!
# Universal sets of gates
-/

namespace Stoq

/-- The primitive may be placed on these qubits: they are one of its lists, or, if it has none, they are distinct qubits
of the register. -/
def Primitive.Acts (n : ℕ) (p : Primitive) (qs : List ℕ) : Prop :=
  match p.allowedApplyTo with
  | some lists => qs.map Int.ofNat ∈ lists
  | none => qs.Nodup ∧ ∀ q ∈ qs, q < n

/-- With the gates that satisfy `P` one comes as close to every unitary matrix as desired. -/
def Universal (n : ℕ) (P : EntryVal → Prop) : Prop :=
  ∀ T ∈ Matrix.unitaryGroup (Fin (2 ^ n)) ℂ, ∀ ε > 0, ∃ gates : List EntryVal, (∀ v ∈ gates, P v) ∧
    1 - overlap T (circuit n gates) < ε

/-- Any two qubits are joined by a chain of pairs, in either direction. -/
def Connected (n : ℕ) (pair : ℕ → ℕ → Prop) : Prop :=
  ∀ i < n, ∀ j < n, Relation.ReflTransGen (fun a b => pair a b ∨ pair b a) i j

/-- A primitive with the gate `u` can be chosen and placed on `qs`: it has a positive weight, if there are weights. -/
def Offered (n : ℕ) (prims : List Primitive) (probs : Option (List ℝ)) (u : Unitary) (qs : List ℕ) : Prop :=
  ∃ (i : ℕ) (q : Primitive), (placeable prims)[i]? = some q ∧
    (∀ p, probs = some p → ∀ x, p[i]? = some x → 0 < x) ∧ q.unitary = .inl u ∧ q.Acts n qs

end Stoq
