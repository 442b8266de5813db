import Verif.Spec.Compile
import Verif.Model.Verification

/-!
# Randomized verification sequences, on plain lists of gates
-/

namespace Stoq

namespace Rav

open Matrix

/-- `k` blocks of random gates, one after the other. -/
def blocks (fresh : PyM Rng (List EntryVal)) : ℕ → PyM Rng (List EntryVal)
  | 0 => pure []
  | k + 1 => do
    let b ← fresh
    let rest ← blocks fresh k
    return b ++ rest

open Classical in
/-- A random circuit, then (unless that is to be skipped) a walk towards the inverse of that circuit, started from no
gates at inverse temperature zero.  The random gates and the states of the walk. -/
noncomputable def plan (n : ℕ) (random : PyM Rng (List EntryVal))
    (proposal : List EntryVal → PyM Rng (List EntryVal)) (rate cap : ℝ) (threshold : Option ℝ) (skip : Prop) (m : ℤ) :
    PyM Rng (List EntryVal × List Metropolis.State) := do
  let pre ← random
  if skip then return (pre, [])
  else do
    let walk ← Metropolis.run n (circuit n pre)ᴴ threshold rate cap proposal m.toNat ⟨[], 0⟩
    return (pre, walk)

/-- The gates the walk ends with. -/
def final (walk : List Metropolis.State) : List EntryVal := (walk.getLast?.getD ⟨[], 0⟩).gates

end Rav

/-- The compiler `generate_rav_sequence` makes: dimension, primitives and probabilities as given, annealing rate and
cap as by default, and its place among the compilers. -/
noncomputable def ravCompiler (D : ℕ) (prims : List Primitive) (isArray : Bool) (probs : Option (List ℝ)) (p : ℝ)
    (self : ℕ) : Compiler :=
  ⟨D, prims, isArray, probs, ((2 : ℝ) ^ D) ^ 2, 0.1, p, self⟩

end Stoq
