import Verif.Spec.Law
import Verif.Spec.Verification

/-!
# The distribution of randomized verification sequences
-/

namespace Stoq

namespace Rav

open Matrix

/-- `k` independent blocks of random gates, one after the other. -/
noncomputable def blocksLaw (fresh : PMF (List EntryVal)) : ℕ → PMF (List EntryVal)
  | 0 => pure []
  | k + 1 => do
    let b ← fresh
    let rest ← blocksLaw fresh k
    return b ++ rest

open Classical in
/-- A random circuit, then (unless that is to be skipped) the Markov chain with the inverse of that circuit as goal. -/
noncomputable def planLaw (n : ℕ) (random : PMF (List EntryVal)) (proposal : List EntryVal → PMF (List EntryVal))
    (rate cap : ℝ) (threshold : Option ℝ) (skip : Prop) (m : ℤ) : PMF (List EntryVal × List Metropolis.State) := do
  let pre ← random
  if skip then return (pre, [])
  else do
    let walk ← Metropolis.runLaw n (circuit n pre)ᴴ threshold rate cap proposal m.toNat ⟨[], 0⟩
    return (pre, walk)

/-- All gates and the costs of the steps. -/
noncomputable def outcome (n : ℕ) (a : List EntryVal × List Metropolis.State) : List EntryVal × List ℝ :=
  (a.1 ++ final a.2, a.2.map fun st => Metropolis.cost n (circuit n a.1)ᴴ st.gates)

end Rav

end Stoq
