import Mathlib.Analysis.CStarAlgebra.Matrix
import Verif.Model.Compiler
import Verif.Model.Definitions

/-!
# class HamiltonianTerm and class Hamiltonian   (stoqcompiler/hamiltonian/)
-/

namespace Stoq

open World

open scoped Matrix.Norms.L2Operator in
/-- `np.max(s)` for the singular values `s` of a square matrix (hamiltonian_term.py:36-37), i.e. the operator
norm induced by the Euclidean norm. -/
noncomputable def Arr.maxSingularValue (a : Arr) : ℝ := ‖a.toMatrix a.rows‖

/-- Attributes of a `HamiltonianTerm` (hamiltonian_term.py:26, 37, 38). -/
structure HamiltonianTerm where
  dimension : ℕ
  coefficient : ℝ
  normalizedMatrix : Arr

namespace HamiltonianTerm

/-- `get_matrix` (hamiltonian_term.py:55-63). -/
noncomputable def getMatrix (h : HamiltonianTerm) : Arr := h.normalizedMatrix.smul (h.coefficient : ℂ)

/-- `HamiltonianTerm.__init__` (hamiltonian_term.py:15-43).  For the zero matrix numpy computes `0/0 = nan` and
the final `allclose` fails; the model asserts `coefficient ≠ 0` at that point.  `np.max` of the empty
array of singular values of a `0 × 0` matrix raises ValueError. -/
noncomputable def new (matrix : Arr) : Except PyErr HamiltonianTerm := do
  assertE (matrix.cols = matrix.rows)
  assertE (allclose matrix matrix.ct)
  raiseUnless (matrix.rows ≠ 0) .valueError
  let coefficient := matrix.maxSingularValue
  let normalizedMatrix := matrix.smul ((1 / coefficient : ℝ) : ℂ)
  assertE (coefficient ≥ 0)
  let term : HamiltonianTerm := { dimension := matrix.rows, coefficient, normalizedMatrix }
  assertE (coefficient ≠ 0)
  assertE (allclose matrix term.getMatrix)
  return term

end HamiltonianTerm

/-- `np.sum([...], axis=0)` of `d × d` matrices. -/
noncomputable def Arr.sum (d : ℕ) (ms : List Arr) : Arr := ⟨d, d, fun i j => (ms.map (fun m => m.val i j)).sum⟩

/-- `itertools.combinations(l, k)`, in its lexicographic order. -/
def combinations {α : Type _} : ℕ → List α → List (List α)
  | 0, _ => [[]]
  | _ + 1, [] => []
  | k + 1, a :: l => (combinations k l).map (a :: ·) ++ combinations (k + 1) l

/-- Attributes of a `Hamiltonian` (hamiltonian.py:43-47). -/
structure Hamiltonian where
  dimension : ℕ
  terms : List HamiltonianTerm

namespace Hamiltonian

/-- `Hamiltonian.__init__` (hamiltonian.py:31-47). -/
noncomputable def new (terms : List HamiltonianTerm) : Except PyErr Hamiltonian :=
  match terms with
  | [] => .error .assertion
  | t0 :: _ => do
    assertE (∀ t ∈ terms, t.dimension = t0.dimension)
    return { dimension := t0.dimension, terms }

/-- `get_qubit_count` (hamiltonian.py:59-68). -/
def getQubitCount (H : Hamiltonian) : ℕ := intLog2 H.dimension

/-- `list(range(self.get_qubit_count()))`. -/
def applyTo (H : Hamiltonian) : List ℤ := (List.range H.getQubitCount).map Int.ofNat

/-- The sum of all term matrices (hamiltonian.py:83). -/
noncomputable def totalMatrix (H : Hamiltonian) : Arr := Arr.sum H.dimension (H.terms.map (·.getMatrix))

/-- `get_time_evolution_operator` (hamiltonian.py:70-84). -/
noncomputable def getTimeEvolutionOperator (τ : Arith) (H : Hamiltonian) (time : ℝ) : Except PyErr Unitary :=
  UnitaryDefinitions.timeEvolution τ H.totalMatrix time

/-- The loop of `get_ideal_sequence` (hamiltonian.py:109-111). -/
noncomputable def idealEntries (H : Hamiltonian) (u : Unitary) : ℕ → PyM World (List Ref)
  | 0 => pure []
  | n + 1 => do
    let e ← Entry.new u H.applyTo
    let es ← idealEntries H u n
    return e :: es

/-- `get_ideal_sequence` (hamiltonian.py:86-113); `time` is a Python float, so `time / 0` raises
ZeroDivisionError. -/
noncomputable def getIdealSequence (τ : Arith) (H : Hamiltonian) (time : ℝ) (numSteps : ℤ) :
    PyM World SRef := do
  PyM.lift (raiseUnless (numSteps ≠ 0) .zeroDivision)
  let timePerStep := time / numSteps
  let u ← PyM.lift (H.getTimeEvolutionOperator τ timePerStep)
  let es ← idealEntries H u numSteps.toNat
  Seq.new H.dimension false es

/-- The inner loop of `get_trotter_sequence` (hamiltonian.py:145-150). -/
noncomputable def trotterStep (τ : Arith) (H : Hamiltonian) (timePerStep : ℝ) : List ℕ → PyM World (List Ref)
  | [] => pure []
  | i :: rest => do
    match H.terms[i]? with
    | none => PyM.raise .indexError
    | some term => do
      let u ← PyM.lift (UnitaryDefinitions.timeEvolution τ term.getMatrix timePerStep (toString i))
      let e ← Entry.new u H.applyTo
      let es ← trotterStep τ H timePerStep rest
      return e :: es

/-- The outer loop of `get_trotter_sequence` (hamiltonian.py:142-150); `random.shuffle` permutes the index
list in place, so shuffles accumulate. -/
noncomputable def trotterLoop (τ : Arith) (H : Hamiltonian) (timePerStep : ℝ) (randomize : Bool) :
    ℕ → List ℕ → PyM World (List Ref)
  | 0, _ => pure []
  | n + 1, indices => do
    let indices ← if randomize then withRng (Rng.shuffle indices) else pure indices
    let es ← trotterStep τ H timePerStep indices
    let more ← trotterLoop τ H timePerStep randomize n indices
    return es ++ more

/-- `get_trotter_sequence` (hamiltonian.py:115-152). -/
noncomputable def getTrotterSequence (τ : Arith) (H : Hamiltonian) (time : ℝ) (numTrotterSteps : ℤ)
    (randomize : Bool := false) : PyM World SRef := do
  PyM.lift (raiseUnless (numTrotterSteps ≠ 0) .zeroDivision)
  let timePerStep := time / numTrotterSteps
  let es ← trotterLoop τ H timePerStep randomize numTrotterSteps.toNat (List.range H.terms.length)
  Seq.new H.dimension false es

/-- `sum_coefficients` (hamiltonian.py:174-175). -/
noncomputable def sumCoefficients (H : Hamiltonian) : ℝ := (H.terms.map (·.coefficient)).sum

/-- `prob_coefficients` (hamiltonian.py:176). -/
noncomputable def probCoefficients (H : Hamiltonian) : List ℝ :=
  H.terms.map (fun t => t.coefficient / H.sumCoefficients)

/-- The loop of `get_qdrift_sequence` (hamiltonian.py:179-186).  `self.terms.index(term)` finds the chosen
object; the model takes the chosen index (they differ only in the display name, and only if the same
`HamiltonianTerm` object is listed twice). -/
noncomputable def qdriftLoop (τ : Arith) (H : Hamiltonian) (timePerStep : ℝ) : ℕ → PyM World (List Ref)
  | 0 => pure []
  | n + 1 => do
    let i ← withRng (Rng.choiceP H.terms.length H.probCoefficients)
    match H.terms[i]? with
    | none => PyM.raise .indexError
    | some term => do
      let u ← PyM.lift (UnitaryDefinitions.timeEvolution τ term.normalizedMatrix timePerStep
        (toString i ++ " λ/N"))
      let e ← Entry.new u H.applyTo
      let es ← qdriftLoop τ H timePerStep n
      return e :: es

/-- `get_qdrift_sequence` (hamiltonian.py:154-188).  `sum_coefficients` is a numpy float, so a zero
`num_repetitions` gives a warning and an infinite (unused) `time_per_step`, not an exception. -/
noncomputable def getQdriftSequence (τ : Arith) (H : Hamiltonian) (time : ℝ) (numRepetitions : ℤ) :
    PyM World SRef := do
  let timePerStep := H.sumCoefficients * time / numRepetitions
  let es ← qdriftLoop τ H timePerStep numRepetitions.toNat
  Seq.new H.dimension false es

/-- `_get_term_subsets` (hamiltonian.py:267-283), the index lists. -/
def termSubsets (H : Hamiltonian) (allowSimultaneousTerms : Bool) : List (List ℕ) :=
  if allowSimultaneousTerms then
    (List.range' 1 H.terms.length).flatMap (fun k => combinations k (List.range H.terms.length))
  else (List.range H.terms.length).map (fun i => [i])

/-- The term matrices at the given indices, summed (hamiltonian.py:256-257). -/
noncomputable def subsetMatrix (H : Hamiltonian) (indices : List ℕ) : Arr :=
  Arr.sum H.dimension (indices.filterMap (fun i => H.terms[i]?.map (·.getMatrix)))

/-- `"+".join([str(i) for i in indices])` (hamiltonian.py:258). -/
def subsetSuffix (indices : List ℕ) : String := "+".intercalate (indices.map toString)

/-- `_get_unitary_primitives` (hamiltonian.py:243-265). -/
noncomputable def getUnitaryPrimitives (τ : Arith) (H : Hamiltonian) (maxTStep : ℝ)
    (allowSimultaneousTerms : Bool) : Except PyErr (List Primitive) :=
  (H.termSubsets allowSimultaneousTerms).mapM (fun indices => do
    let pu ← ParamDefinitions.timeEvolution τ (H.subsetMatrix indices) (-maxTStep) maxTStep
      (subsetSuffix indices)
    Primitive.new (.inr pu) (some [H.applyTo]))

/-- `_compile_stoq_sequence_for_target_unitary` (hamiltonian.py:223-241). -/
noncomputable def compileStoqForTarget (τ : Arith) (H : Hamiltonian) (target : Unitary) (maxTStep : ℝ)
    (threshold : Option ℝ) (allowSimultaneousTerms : Bool) : PyM World CompilerResult := do
  let primitives ← PyM.lift (H.getUnitaryPrimitives τ maxTStep allowSimultaneousTerms)
  let compiler ← Compiler.new H.dimension primitives
  compiler.compile τ target threshold 10000

/-- `compile_stoq_sequence` (hamiltonian.py:190-221). -/
noncomputable def compileStoqSequence (τ : Arith) (H : Hamiltonian) (time maxTStep : ℝ)
    (threshold : Option ℝ) (allowSimultaneousTerms : Bool := false) : PyM World CompilerResult := do
  let target ← PyM.lift (H.getTimeEvolutionOperator τ time)
  H.compileStoqForTarget τ target maxTStep threshold allowSimultaneousTerms

/-- `np.random.choice(unitary_primitives).get_unitary().as_unitary([t_step])` (hamiltonian.py:327-328);
here every primitive is parameterised. -/
noncomputable def ravUnitary (τ : Arith) (primitives : List Primitive) (tStep : ℝ) : PyM World Unitary := do
  let i ← withRng (Rng.choice primitives.length)
  match primitives[i]? with
  | none => PyM.raise .indexError
  | some prim =>
    match prim.unitary with
    | .inl _ => PyM.raise .attributeError
    | .inr pu => PyM.lift (pu.asUnitary τ [tStep])

/-- The body of the loop of `compile_rav_sequence` (hamiltonian.py:324-329); returns `t_step`.
`forward_probability` is 0.8 (hamiltonian.py:316). -/
noncomputable def ravStep (τ : Arith) (H : Hamiltonian) (primitives : List Primitive) (maxTStep : ℝ) (seq : SRef) :
    PyM World ℝ := do
  let r ← withRng Rng.randomSample
  let s ← withRng Rng.randomSample
  let tStep := (maxTStep * r) * (open Classical in if s < 0.8 then 1 else -1)
  let u ← ravUnitary τ primitives tStep
  let e ← Entry.new u H.applyTo
  Seq.appendLast τ seq e
  return tStep

/-- The `while total_time < time` loop of `compile_rav_sequence` (hamiltonian.py:323-330).  The loop need not
terminate; `fuel` bounds the number of iterations and running out of it stands for "still running". -/
noncomputable def ravLoop (τ : Arith) (H : Hamiltonian) (primitives : List Primitive) (maxTStep time : ℝ)
    (seq : SRef) : ℕ → ℝ → PyM World Unit
  | 0, total => if total < time then PyM.raise .outOfFuel else pure ()
  | fuel + 1, total =>
    if total < time then do
      let tStep ← ravStep τ H primitives maxTStep seq
      ravLoop τ H primitives maxTStep time seq fuel (total + |tStep|)
    else pure ()

/-- `compile_rav_sequence` (hamiltonian.py:285-343). -/
noncomputable def compileRavSequence (τ : Arith) (H : Hamiltonian) (time maxTStep : ℝ) (threshold : Option ℝ)
    (allowSimultaneousTerms : Bool) (fuel : ℕ) : PyM World CompilerResult := do
  let primitives ← PyM.lift (H.getUnitaryPrimitives τ maxTStep allowSimultaneousTerms)
  let randomSequence ← Seq.new H.dimension false []
  ravLoop τ H primitives maxTStep time randomSequence fuel 0
  let p ← Seq.product τ randomSequence
  let target ← PyM.lift (p.inverse τ)
  let result ← H.compileStoqForTarget τ target maxTStep threshold allowSimultaneousTerms
  let combined ← Seq.combine τ [randomSequence, result.sequence]
  return { result with sequence := combined }

end Hamiltonian

end Stoq
