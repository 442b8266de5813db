import Mathlib.Analysis.SpecialFunctions.Exp
import Verif.Model.Sequence
import Verif.Model.Parameterized

/-!
# class Compiler   (stoqcompiler/compiler/compiler.py, compiler_action.py, compiler_result.py)

The only attribute of a `Compiler` that is ever mutated is `beta` (compiler.py:173, 263); it lives in the
heap (`World.betas`) under the reference `Compiler.self`.  Elapsed time is not modelled.
-/

namespace Stoq

open World

/-- `CompilerAction` (compiler_action.py:12-15). -/
inductive Action where
  | appendFirst | appendLast | removeFirst | removeLast
  deriving DecidableEq, Repr

namespace Action

/-- `list(CompilerAction)`. -/
def all : List Action := [appendFirst, appendLast, removeFirst, removeLast]

/-- `CompilerAction.is_append` (compiler_action.py:17-31). -/
def isAppend (a : Action) : Bool := a == appendFirst || a == appendLast

end Action

/-- Attributes of a `Compiler` (compiler.py:65-72).  `primitivesIsArray` records whether
`unitary_primitives` is a numpy array (allowed by compiler.py:56-57). -/
structure Compiler where
  dimension : ℕ
  primitives : List Primitive
  primitivesIsArray : Bool
  probabilities : Option (List ℝ)
  maxBeta : ℝ
  annealingRate : ℝ
  appendProbability : ℝ
  self : CRef

/-- `CompilerResult` (compiler_result.py:22-33), without the elapsed time. -/
structure CompilerResult where
  sequence : SRef
  costByStep : List ℝ

/-- Read `self.beta`. -/
def getBeta (c : CRef) : PyM World ℝ := fun w =>
  match w.betas[c]? with
  | some b => (.ok b, w)
  | none => (.error .dangling, w)

/-- Assign `self.beta`. -/
def setBeta (c : CRef) (b : ℝ) : PyM World Unit :=
  PyM.modify fun w => { w with betas := w.betas.set c b }

/-- Allocate a compiler object. -/
def allocBeta (b : ℝ) : PyM World CRef := fun w =>
  (.ok w.betas.length, { w with betas := w.betas ++ [b] })

namespace Compiler

/-- `Compiler.__init__` (compiler.py:44-72).  Primitives are immutable, so the deep copies are invisible. -/
noncomputable def new (dimension : ℕ) (primitives : List Primitive) (primitivesIsArray : Bool := false)
    (probabilities : Option (List ℝ) := none) (appendProbability : ℝ := 0.5)
    (annealingRate : ℝ := 0.1) : PyM World Compiler := do
  PyM.assert (dimension > 0)
  PyM.assert (∀ p ∈ primitives, p.getDimension ≤ dimension)
  let self ← allocBeta 0
  return { dimension, primitives, primitivesIsArray, probabilities,
           maxBeta := ((2 : ℝ) ^ dimension) ^ 2, annealingRate, appendProbability, self }

/-- `[p.random_value() for p in new_unitary.get_parameters()]` (compiler.py:228-229). -/
noncomputable def randomParameterValues : List Parameter → PyM Rng (List ℝ)
  | [] => pure []
  | p :: ps => do
    let v ← p.randomValue
    let vs ← randomParameterValues ps
    return v :: vs

/-- The filter in `create_random_sequence_entry` (compiler.py:217-220). -/
def usable (p : Primitive) : Bool :=
  match p.allowedApplyTo with
  | none => true
  | some l => l.length > 0

/-- `create_random_sequence_entry` (compiler.py:189-244), the new entry as a value. -/
noncomputable def createRandomEntryVal (τ : Arith) (dimension : ℕ) (primitives : List Primitive)
    (probabilities : Option (List ℝ)) : PyM Rng EntryVal := do
  let primitives := primitives.filter usable
  let i ← Rng.choiceOpt primitives.length probabilities
  match primitives[i]? with
  | none => PyM.raise .indexError
  | some prim => do
    let newUnitary ← match prim.unitary with
      | .inl u => pure u
      | .inr pu => do
        let values ← randomParameterValues pu.parameters
        PyM.lift (pu.asUnitary τ values)
    let numSystemQubits := intLog2 dimension
    match prim.allowedApplyTo with
    | some allowed => do
      let k ← Rng.choice allowed.length
      match allowed[k]? with
      | none => PyM.raise .indexError
      | some applyTo => PyM.lift (EntryVal.new newUnitary applyTo)
    | none => do
      let applyTo ← Rng.choiceNoReplace numSystemQubits (intLog2 newUnitary.getDimension)
      PyM.lift (EntryVal.new newUnitary (applyTo.map Int.ofNat))

/-- `create_random_sequence_entry` (compiler.py:189-244), allocating the entry object. -/
noncomputable def createRandomSequenceEntry (τ : Arith) (dimension : ℕ) (primitives : List Primitive)
    (probabilities : Option (List ℝ)) : PyM World Ref := do
  let v ← withRng (createRandomEntryVal τ dimension primitives probabilities)
  allocEntry { toVal := v, cache := [] }

/-- `[create_random_sequence_entry(dimension, [primitive]) for _ in range(count)]`
(compiler.py:309-311). -/
noncomputable def createMany (τ : Arith) (dimension : ℕ) (primitive : Primitive) : ℕ → PyM World (List Ref)
  | 0 => pure []
  | n + 1 => do
    let e ← createRandomSequenceEntry τ dimension [primitive] none
    let es ← createMany τ dimension primitive n
    return e :: es

/-- The loop of `create_random_layer` (compiler.py:307-311).  The dictionary is its list of items in
insertion order; `range(count)` is empty for negative counts. -/
noncomputable def createLayerEntries (τ : Arith) (dimension : ℕ) : List (Primitive × ℤ) → PyM World (List Ref)
  | [] => pure []
  | (primitive, count) :: rest => do
    let es ← createMany τ dimension primitive count.toNat
    let more ← createLayerEntries τ dimension rest
    return es ++ more

/-- `create_random_layer` (compiler.py:280-313). -/
noncomputable def createRandomLayer (τ : Arith) (dimension : ℕ) (counts : List (Primitive × ℤ)) :
    PyM World (List Ref) := do
  let layer ← createLayerEntries τ dimension counts
  withRng (Rng.shuffle layer)

/-- The action probabilities (compiler.py:323-331 and 357-365). -/
noncomputable def actionProbabilities (appendProbability : ℝ) : List ℝ :=
  let countAppend := (Action.all.filter Action.isAppend).length
  let countNonAppend := Action.all.length - countAppend
  let pAppend := appendProbability / countAppend
  let pNonAppend := (1 - appendProbability) / countNonAppend
  Action.all.map (fun a => if a.isAppend then pAppend else pNonAppend)

/-- `np.random.choice(list(CompilerAction), 1, p=[...])` (compiler.py:329-331). -/
noncomputable def chooseAction (C : Compiler) : PyM World Action := do
  let i ← withRng (Rng.choiceP Action.all.length (actionProbabilities C.appendProbability))
  match Action.all[i]? with
  | none => PyM.raise .indexError
  | some a => pure a

/-- `_make_random_change` (compiler.py:315-346). -/
noncomputable def makeRandomChange (τ : Arith) (C : Compiler) (seq : SRef) : PyM World Unit := do
  match ← chooseAction C with
  | .appendFirst => do
    let e ← createRandomSequenceEntry τ C.dimension C.primitives C.probabilities
    Seq.appendFirst τ seq e
  | .appendLast => do
    let e ← createRandomSequenceEntry τ C.dimension C.primitives C.probabilities
    Seq.appendLast τ seq e
  | .removeFirst => Seq.removeFirst τ seq
  | .removeLast => Seq.removeLast τ seq

/-- `for i, entry in enumerate(new_layer): append_first(entry, save_undo=(i == 0))` (compiler.py:376-378).
`first` is `i == 0`. -/
noncomputable def appendFirstAll (τ : Arith) (seq : SRef) : Bool → List Ref → PyM World Unit
  | _, [] => pure ()
  | first, e :: es => do
    Seq.appendFirst τ seq e first
    appendFirstAll τ seq false es

/-- `for i, entry in enumerate(new_layer): append_last(entry, save_undo=(i == 0))` (compiler.py:380-382). -/
noncomputable def appendLastAll (τ : Arith) (seq : SRef) : Bool → List Ref → PyM World Unit
  | _, [] => pure ()
  | first, e :: es => do
    Seq.appendLast τ seq e first
    appendLastAll τ seq false es

/-- `for i in range(layer_length): remove_first(save_undo=(i == 0))` (compiler.py:384-385). -/
noncomputable def removeFirstN (τ : Arith) (seq : SRef) : Bool → ℕ → PyM World Unit
  | _, 0 => pure ()
  | first, n + 1 => do
    Seq.removeFirst τ seq first
    removeFirstN τ seq false n

/-- `for i in range(layer_length): remove_last(save_undo=(i == 0))` (compiler.py:387-388). -/
noncomputable def removeLastN (τ : Arith) (seq : SRef) : Bool → ℕ → PyM World Unit
  | _, 0 => pure ()
  | first, n + 1 => do
    Seq.removeLast τ seq first
    removeLastN τ seq false n

/-- `_make_random_change_layered` (compiler.py:348-388). -/
noncomputable def makeRandomChangeLayered (τ : Arith) (C : Compiler) (counts : List (Primitive × ℤ))
    (seq : SRef) : PyM World Unit := do
  let action ← chooseAction C
  let layerLength := (counts.map (·.2)).sum
  match action with
  | .appendFirst => do
    let layer ← createRandomLayer τ C.dimension counts
    appendFirstAll τ seq true layer
  | .appendLast => do
    let layer ← createRandomLayer τ C.dimension counts
    appendLastAll τ seq true layer
  | .removeFirst => removeFirstN τ seq true layerLength.toNat
  | .removeLast => removeLastN τ seq true layerLength.toNat

/-- `min(1.0, np.exp(-self.beta * cost_difference))` (compiler.py:400-401). -/
noncomputable def acceptanceProbability (beta currentCost proposedCost : ℝ) : ℝ :=
  min 1 (Real.exp (-beta * (proposedCost - currentCost)))

/-- `_accept_proposed_change` (compiler.py:390-402). -/
noncomputable def acceptProposedChange (C : Compiler) (currentCost proposedCost : ℝ) : PyM World Bool := do
  let beta ← getBeta C.self
  let u ← withRng Rng.randomSample
  return (open Classical in decide (u < acceptanceProbability beta currentCost proposedCost))

/-- Body of the `while` loop (compiler.py:173-185 and, with the layered change, 263-276); the two loops
differ only in `change`.  Returns the cost appended to `cost_by_step`. -/
noncomputable def compileStep (τ : Arith) (C : Compiler) (change : SRef → PyM World Unit) (target : Unitary)
    (seq : SRef) : PyM World ℝ := do
  let beta ← getBeta C.self
  setBeta C.self (min (beta + C.annealingRate) C.maxBeta)
  let productBefore ← Seq.product τ seq
  change seq
  let currentCost ← PyM.lift (target.distanceFrom τ productBefore)
  let productAfter ← Seq.product τ seq
  let proposedCost ← PyM.lift (target.distanceFrom τ productAfter)
  let accept ← acceptProposedChange C currentCost proposedCost
  if accept then
    return proposedCost
  else do
    Seq.undo seq
    return currentCost

/-- `compiled_sequence.product().close_to(target_unitary, threshold)` (compiler.py:170-171, 260-261). -/
noncomputable def isClose (τ : Arith) (target : Unitary) (threshold : Option ℝ) (seq : SRef) :
    PyM World Bool := do
  let p ← Seq.product τ seq
  PyM.lift (p.closeTo τ target threshold)

/-- The condition of the `while` loop around its body `next` (compiler.py:170-172, 260-262). -/
noncomputable def loopTest (τ : Arith) (target : Unitary) (threshold : Option ℝ) (maxStepCount : ℤ) (seq : SRef)
    (costs : List ℝ) (next : PyM World (List ℝ)) : PyM World (List ℝ) := do
  let close ← isClose τ target threshold seq
  if close = true then return costs
  else if ¬ ((costs.length : ℤ) < maxStepCount) then return costs
  else next

/-- The `while` loop (compiler.py:170-185, 260-276).  Every iteration adds one element to `cost_by_step`, so
`fuel = max_step_count` iterations suffice; running out of fuel is proved impossible. -/
noncomputable def compileLoop (τ : Arith) (C : Compiler) (change : SRef → PyM World Unit) (target : Unitary)
    (threshold : Option ℝ) (maxStepCount : ℤ) (seq : SRef) : ℕ → List ℝ → PyM World (List ℝ)
  | 0, costs => loopTest τ target threshold maxStepCount seq costs (PyM.raise .outOfFuel)
  | fuel + 1, costs => loopTest τ target threshold maxStepCount seq costs do
      let cost ← compileStep τ C change target seq
      compileLoop τ C change target threshold maxStepCount seq fuel (costs ++ [cost])

/-- `_compile` / `_compile_layered` (compiler.py:157-187, 246-278), given the change function. -/
noncomputable def compileWith (τ : Arith) (C : Compiler) (change : SRef → PyM World Unit) (target : Unitary)
    (threshold : Option ℝ) (maxStepCount : ℤ) : PyM World CompilerResult := do
  let seq ← Seq.new C.dimension false []
  let costs ← compileLoop τ C change target threshold maxStepCount seq maxStepCount.toNat []
  return { sequence := seq, costByStep := costs }

/-- `compile` (compiler.py:74-110).  `assert self.unitary_primitives` on a numpy array of two or more
elements raises ValueError ("truth value is ambiguous"). -/
noncomputable def compile (τ : Arith) (C : Compiler) (target : Unitary) (threshold : Option ℝ := none)
    (maxStepCount : ℤ := 2147483647) : PyM World CompilerResult := do
  PyM.lift (raiseUnless (¬ (C.primitivesIsArray = true ∧ C.primitives.length > 1)) .valueError)
  PyM.assert (C.primitives ≠ [])
  compileWith τ C (makeRandomChange τ C) target threshold maxStepCount

/-- `compile_layered` (compiler.py:112-155). -/
noncomputable def compileLayered (τ : Arith) (C : Compiler) (target : Unitary)
    (counts : List (Primitive × ℤ)) (threshold : Option ℝ := none) (maxStepCount : ℤ := 2147483647) :
    PyM World CompilerResult :=
  compileWith τ C (makeRandomChangeLayered τ C counts) target threshold maxStepCount

end Compiler

end Stoq
