import Verif.Spec.Verification
import Verif.Model.Hamiltonian

/-!
# The random part of the verification sequence of a Hamiltonian, on plain lists of gates
-/

namespace Stoq

namespace Rav

open Classical in
/-- The time drawn by the numbers `u` (duration) and `v` (direction): forwards with probability 0.8. -/
noncomputable def signedTime (m u v : ℝ) : ℝ := if v < 0.8 then m * u else -(m * u)

open Classical in
/-- Random gates until their total time reaches `time`; `total` is the time so far.  If this takes more than `fuel`
gates, the result is `outOfFuel`. -/
noncomputable def evolutions (gate : ℝ → PyM Rng EntryVal) (m time : ℝ) : ℕ → ℝ → PyM Rng (List EntryVal)
  | 0, total => if total < time then PyM.raise .outOfFuel else pure []
  | fuel + 1, total =>
    if total < time then do
      let u ← Rng.randomSample
      let v ← Rng.randomSample
      let g ← gate (signedTime m u v)
      let rest ← evolutions gate m time fuel (total + |signedTime m u v|)
      return g :: rest
    else pure []

/-- The time of the `k`-th gate, read off the random numbers. -/
noncomputable def stepTime (m : ℝ) (r : Rng) (k : ℕ) : ℝ :=
  signedTime m (r.unif (r.upos + 2 * k)) (r.unif (r.upos + 2 * k + 1))

/-- The total time of the first `k` gates. -/
noncomputable def totalTime (m : ℝ) (r : Rng) (k : ℕ) : ℝ := ((List.range k).map fun i => |stepTime m r i|).sum

/-- One primitive, chosen uniformly, for the time `t` on the given qubits. -/
noncomputable def evolveGate (τ : Arith) (primitives : List Primitive) (qubits : List ℤ) (t : ℝ) : PyM Rng EntryVal := do
  let i ← Rng.choice primitives.length
  match primitives[i]? with
  | none => PyM.raise .indexError
  | some prim =>
    match prim.unitary with
    | .inl _ => PyM.raise .attributeError
    | .inr pu => do
      let u ← PyM.lift (pu.asUnitary τ [t])
      PyM.lift (EntryVal.new u qubits)

end Rav

end Stoq
