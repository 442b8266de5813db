import Verif.Model.Compiler

/-!
# class Verification   (stoqcompiler/verification/verification.py)
-/

namespace Stoq

open World

namespace Verification

/-- `assert threshold >= 0.0 and threshold <= 1.0` (verification.py:69, 149): comparing `None` is a
TypeError. -/
noncomputable def checkThreshold : Option ℝ → PyM World ℝ
  | none => PyM.raise .typeError
  | some t => do
    PyM.assert (t ≥ 0 ∧ t ≤ 1)
    return t

/-- The loop building the random part (verification.py:73-76). -/
noncomputable def appendRandomEntries (τ : Arith) (dimension : ℕ) (primitives : List Primitive)
    (probabilities : Option (List ℝ)) (seq : SRef) : ℕ → PyM World Unit
  | 0 => pure ()
  | n + 1 => do
    let e ← Compiler.createRandomSequenceEntry τ dimension primitives probabilities
    Seq.appendLast τ seq e
    appendRandomEntries τ dimension primitives probabilities seq n

/-- `generate_rav_sequence` (verification.py:15-97). -/
noncomputable def generateRavSequence (τ : Arith) (dimension : ℕ) (primitives : List Primitive)
    (primitivesIsArray : Bool) (sequenceLength : ℤ) (threshold : Option ℝ)
    (stoqAppendProbability : ℝ := 0.5) (probabilities : Option (List ℝ) := none)
    (maxStepCount : ℤ := 10000) : PyM World CompilerResult := do
  PyM.assert (∀ p ∈ primitives, p.getDimension ≤ dimension)
  PyM.assert (sequenceLength ≥ 0)
  let t ← checkThreshold threshold
  let randomSequence ← Seq.new dimension false []
  appendRandomEntries τ dimension primitives probabilities randomSequence sequenceLength.toNat
  if t = 0 ∨ maxStepCount = 0 then
    return { sequence := randomSequence, costByStep := [] }
  else do
    let p ← Seq.product τ randomSequence
    let target ← PyM.lift (p.inverse τ)
    let compiler ← Compiler.new dimension primitives primitivesIsArray probabilities stoqAppendProbability
    let result ← compiler.compile τ target (some t) maxStepCount
    let combined ← Seq.combine τ [randomSequence, result.sequence]
    return { result with sequence := combined }

/-- `for sequence_entry in layer: random_sequence.append_last(sequence_entry)` (verification.py:158-159). -/
noncomputable def appendAll (τ : Arith) (seq : SRef) : List Ref → PyM World Unit
  | [] => pure ()
  | e :: es => do
    Seq.appendLast τ seq e
    appendAll τ seq es

/-- The loop building the random layers (verification.py:155-159). -/
noncomputable def appendRandomLayers (τ : Arith) (dimension : ℕ) (counts : List (Primitive × ℤ))
    (seq : SRef) : ℕ → PyM World Unit
  | 0 => pure ()
  | n + 1 => do
    let layer ← Compiler.createRandomLayer τ dimension counts
    appendAll τ seq layer
    appendRandomLayers τ dimension counts seq n

/-- `generate_layered_rav_sequence` (verification.py:99-180). -/
noncomputable def generateLayeredRavSequence (τ : Arith) (dimension : ℕ) (counts : List (Primitive × ℤ))
    (layerCount : ℤ) (threshold : Option ℝ) (stoqAppendProbability : ℝ := 0.5)
    (maxStepCount : ℤ := 10000) : PyM World CompilerResult := do
  PyM.assert (∀ p ∈ counts, p.1.getDimension ≤ dimension)
  PyM.assert (layerCount ≥ 0)
  let t ← checkThreshold threshold
  let randomSequence ← Seq.new dimension false []
  appendRandomLayers τ dimension counts randomSequence layerCount.toNat
  if t = 0 ∨ maxStepCount = 0 then
    return { sequence := randomSequence, costByStep := [] }
  else do
    let p ← Seq.product τ randomSequence
    let target ← PyM.lift (p.inverse τ)
    let compiler ← Compiler.new dimension (counts.map (·.1)) false none stoqAppendProbability
    let result ← compiler.compileLayered τ target counts (some t) maxStepCount
    let combined ← Seq.combine τ [randomSequence, result.sequence]
    return { result with sequence := combined }

/-- `generate_xeb_sequence` (verification.py:182-206). -/
noncomputable def generateXebSequence (τ : Arith) (dimension : ℕ) (counts : List (Primitive × ℤ))
    (layerCount : ℤ) : PyM World CompilerResult :=
  generateLayeredRavSequence τ dimension counts layerCount (some 0) (maxStepCount := 0)

end Verification

end Stoq
