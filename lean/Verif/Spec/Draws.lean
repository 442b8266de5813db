import Verif.Spec.Hamiltonian
import Verif.Spec.Compile

/-!
# Random draws

What the random source delivers next, as finite lists: `us` are numbers of `[0, 1)`, and each `(b, d)` of `ns` is a
draw from the `b` numbers `0, …, b - 1` with the outcome `d`.  In numpy all outcomes of one draw are equally likely.
-/

namespace Stoq

namespace Rng

/-- The next real numbers are `us`, and the next integer draws from ranges of the sizes given in `ns` have the
outcomes given there. -/
def Delivers (r : Rng) (us : List (Set.Ico (0 : ℝ) 1)) (ns : List (ℕ × ℕ)) : Prop :=
  (∀ i (h : i < us.length), r.unif (r.upos + i) = us[i]) ∧
    ∀ i (h : i < ns.length), r.nat (r.npos + i) % ns[i].1 = ns[i].2

/-- The random source after `a` more real numbers and `b` more integers. -/
def skip (r : Rng) (a b : ℕ) : Rng := { r with upos := r.upos + a, npos := r.npos + b }

/-- Given the draws `us` and `ns`, the computation returns `x` and has used exactly these draws. -/
def Yields {α : Type} (m : PyM Rng α) (us : List (Set.Ico (0 : ℝ) 1)) (ns : List (ℕ × ℕ)) (x : α) : Prop :=
  ∀ r : Rng, r.Delivers us ns → m r = (.ok x, r.skip us.length ns.length)

/-- Outcomes are in their ranges. -/
def InRange (ns : List (ℕ × ℕ)) : Prop := ∀ x ∈ ns, x.2 < x.1

/-- The draws of a shuffle of `n` objects: one from `n`, one from `n - 1`, …, one from 2 possibilities. -/
def ShuffleDraws (n : ℕ) (ns : List (ℕ × ℕ)) : Prop :=
  ns.map Prod.fst = (List.range (n - 1)).map (fun t => n - t) ∧ InRange ns

end Rng

/-- The value at the fraction `x` of the range of a parameter. -/
def Parameter.atFraction (q : Parameter) (x : Set.Ico (0 : ℝ) 1) : ℝ :=
  q.minValue + (x : ℝ) * (q.maxValue - q.minValue)

/-- The unitary of a random instance of a primitive: its unitary if it has no parameters, otherwise the one whose
parameter values lie at the fractions `us` of their ranges. -/
def Primitive.DrawsUnitary (τ : Arith) (p : Primitive) (us : List (Set.Ico (0 : ℝ) 1)) (u : Unitary) : Prop :=
  match p.unitary with
  | .inl u0 => us = [] ∧ u = u0
  | .inr pu => us.length = pu.parameters.length ∧
      pu.asUnitary τ (List.zipWith Parameter.atFraction pu.parameters us) = .ok u

/-- The qubits of a random instance of a primitive in a system of `m` qubits: one of the allowed lists, or, without
restriction, the first ones of all `m` qubits after a shuffle. -/
def Primitive.DrawsQubits (m : ℕ) (p : Primitive) (ns : List (ℕ × ℕ)) (qs : List ℕ) : Prop :=
  match p.allowedApplyTo with
  | some lists => ∃ j, ns = [(lists.length, j)] ∧ lists[j]? = some (qs.map Int.ofNat)
  | none => Rng.ShuffleDraws m ns ∧ ∃ order, Rng.Yields (Rng.shuffle (List.range m)) [] ns order ∧ qs <+: order

/-- The primitives that can be placed somewhere. -/
noncomputable def placeable (prims : List Primitive) : List Primitive :=
  prims.filter fun p => p.allowedApplyTo ≠ some []

end Stoq
