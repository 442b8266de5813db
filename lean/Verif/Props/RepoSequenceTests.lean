import Verif.Proofs.RepoSequenceTests
import Verif.Props.RepoTests

/-!
# The repository's tests of entries and sequences

The test programs of `tests/test_unitary.py`, classes `TestUnitarySequenceEntry` and `TestUnitarySequence`
(`Verif/Model/Tests.lean`).  A test passes if its program ends without an exception.  The theorems hold for every
sufficiently accurate arithmetic (C81_accuracy) and every random number generator.
-/

namespace Stoq

open Tests

variable {τ : Arith}

/-- The tests of `UnitarySequenceEntry` pass. -/
theorem C82_entries (hτ : Fine τ) (rng : Rng) :
    (entryIdentity τ (Client.start rng)).1 = .ok () ∧ (entryCnot τ (Client.start rng)).1 = .ok () ∧
    (entryCnotSwapped τ (Client.start rng)).1 = .ok () :=
  ⟨pass_entryIdentity hτ rng, pass_entryCnot hτ rng, pass_entryCnotSwapped hτ rng⟩

/-- The tests of `UnitarySequence` pass. -/
theorem C82_sequences (hτ : Fine τ) (rng : Rng) (fmt : ℕ → ℝ → String) :
    (sequenceDefault τ (Client.start rng)).1 = .ok () ∧ (identityRoots τ 8 true (Client.start rng)).1 = .ok () ∧
    (identityRoots τ 7 false (Client.start rng)).1 = .ok () ∧ (appendAndRemove τ (Client.start rng)).1 = .ok () ∧
    (Tests.undo τ (Client.start rng)).1 = .ok () ∧ (sequenceCombine τ (Client.start rng)).1 = .ok () ∧
    (sequenceInverse τ (Client.start rng)).1 = .ok () ∧ (outputFormats τ fmt (Client.start rng)).1 = .ok () :=
  ⟨pass_sequenceDefault hτ rng, pass_identityRoots_correct hτ rng, pass_identityRoots_incorrect hτ rng,
    pass_appendAndRemove hτ rng, pass_undo hτ rng, pass_sequenceCombine hτ rng, pass_sequenceInverse hτ rng,
    pass_outputFormats hτ fmt rng⟩

/-! ## The hypotheses can be met -/

example (rng : Rng) : (Tests.undo (Machine.double.arith codeTau) (Client.start rng)).1 = .ok () :=
  (C82_sequences C81_accuracy.2.2.1 rng fun _ _ => "").2.2.2.2.1

example (rng : Rng) : (entryCnot 0 (Client.start rng)).1 = .ok () := (C82_entries C81_accuracy.1 rng).2.1

end Stoq
