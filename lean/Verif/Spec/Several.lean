import Verif.Spec.Compile

/-!
# Several searches in a row
-/

namespace Stoq

/-- The gates of the sequence that a call returns. -/
def Returned (out : Except PyErr CompilerResult × World) (gates : List EntryVal) : Prop :=
  ∃ R v, out.1 = .ok R ∧ out.2.view R.sequence = some v ∧ v.entries = gates

/-- A program makes `k` further calls of `compile`, all of which return a good enough sequence.  The next target may
depend on the gates of all the sequences found so far. -/
def AllFound (n : ℕ) (threshold : Option ℝ) (compile : Unitary → PyM World CompilerResult)
    (next : List (List EntryVal) → Unitary) : ℕ → List (List EntryVal) → World → Prop
  | 0, _, _ => True
  | k + 1, found, w => ∃ gates, Returned (compile (next found) w) gates ∧
      Metropolis.GoodEnough threshold (1 - overlap ((next found).matrix.toMatrix (2 ^ n)) (circuit n gates)) ∧
      AllFound n threshold compile next k (found ++ [gates]) (compile (next found) w).2

end Stoq
