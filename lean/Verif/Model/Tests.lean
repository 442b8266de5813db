import Verif.Model.Definitions
import Verif.Model.Text
import Verif.Spec.History

/-!
# The unit tests of the library   (tests/test_unitary.py)

Each test function is a program that ends normally or with an exception, and the test passes when the program ends
normally.  A matrix written down in a test is computed with the elementary functions, so it is `τ.gate` of the exact
matrix, as for the gates of the library.  Values drawn at random are arguments.  `fmt` is number formatting, as in
Model/Text.  Assertions on the Python type of a result (`isinstance(name, str)`) hold by typing.
-/

namespace Stoq.Tests

open Complex UnitaryDefinitions

/-! ## pytest -/

/-- `assert b` and `assert not b` for a computed boolean. -/
noncomputable def assertIs (expected : Bool) (b : Except PyErr Bool) : Except PyErr Unit := do
  assertE ((← b) = expected)

/-- The errors that are Python exceptions. -/
def isException : PyErr → Bool
  | .nonFinite | .dangling | .outOfFuel => false
  | _ => true

/-- `with pytest.raises(Exception)` around code without side effects. -/
def raises {α : Type} (m : Except PyErr α) : Except PyErr Unit :=
  match m with
  | .error e => if isException e then .ok () else .error e
  | .ok _ => .error .assertion

/-- `with pytest.raises(Exception)` around a call that may change objects. -/
def raisesM {σ α : Type} (m : PyM σ α) : PyM σ Unit := fun s => (raises (m s).1, (m s).2)

/-- `a in b` for strings. -/
def Within (a b : String) : Prop := a.toList <:+: b.toList

/-! ## class TestUnitary -/

/-- test_unitary.py:18-23. -/
noncomputable def unitaryDefault (τ : Arith) : Except PyErr Unit := do
  let unitary ← Unitary.new τ 4
  assertE (unitary.getDimension = 4)
  assertIs true (unitary.closeToArr τ (Arr.identity 4) none)

/-- test_unitary.py:25-37; `sample` is the random matrix. -/
noncomputable def closeTo (τ : Arith) (sample : Arr) : Except PyErr Unit := do
  let randomUnitary ← Unitary.random τ 2 sample
  let t ← t τ
  assertIs true (randomUnitary.closeTo τ randomUnitary none)
  assertIs true (randomUnitary.closeTo τ randomUnitary none)
  assertIs true (randomUnitary.closeTo τ randomUnitary (some 0.999))
  assertIs false (randomUnitary.closeTo τ t none)
  assertIs false (randomUnitary.closeTo τ t none)
  assertIs false (randomUnitary.closeTo τ t (some 0.999))
  assertIs true (randomUnitary.closeTo τ t (some 0))

/-- test_unitary.py:39-42. -/
noncomputable def nonSquareMatrix (τ : Arith) : Except PyErr Unit :=
  raises (Unitary.new τ 2 (some (Arr.ofRows [[1, 0, 0], [0, 1, 0]])))

/-- test_unitary.py:44-47. -/
noncomputable def nonUnitaryMatrix (τ : Arith) : Except PyErr Unit :=
  raises (Unitary.new τ 2 (some (Arr.ofRows [[1, 0], [1, 1]])))

/-- test_unitary.py:49-52. -/
noncomputable def mismatchedDimension (τ : Arith) : Except PyErr Unit :=
  raises (Unitary.new τ 4 (some (Arr.identity 3)))

/-- The matrix used in four tests (test_unitary.py:57-59, 141-143, 170-172, 178-180). -/
noncomputable def phases : Arr := Arr.ofRows [[exp (I * Real.pi / 4), 0], [0, I]]

/-- test_unitary.py:54-68. -/
noncomputable def inverseFixed (τ : Arith) (fmt : ℕ → ℝ → String) : Except PyErr Unit := do
  let unitary ← Unitary.new τ 2 (some (τ.gate "test" [] phases)) (some "U")
  let inverse ← unitary.inverse τ
  assertIs true ((← unitary.leftMultiply τ inverse).closeToArr τ (Arr.identity 2) none)
  assertIs true ((← unitary.rightMultiply τ inverse).closeToArr τ (Arr.identity 2) none)
  assertE (inverse.getDisplayName fmt = "U†")
  let doubleInverse ← inverse.inverse τ
  assertE (doubleInverse.getDisplayName fmt = "U")
  assertIs true (unitary.closeTo τ doubleInverse none)

/-- test_unitary.py:70-76; `sample` is the random matrix. -/
noncomputable def inverseRandom (τ : Arith) (sample : Arr) : Except PyErr Unit := do
  let unitary ← Unitary.random τ 2 sample
  let inverse ← unitary.inverse τ
  assertIs true ((← unitary.leftMultiply τ inverse).closeToArr τ (Arr.identity 2) none)
  assertIs true ((← unitary.rightMultiply τ inverse).closeToArr τ (Arr.identity 2) none)

/-- test_unitary.py:78-93. -/
noncomputable def tensor (τ : Arith) : Except PyErr Unit := do
  let unitary ← Unitary.new τ 2
  let product ← unitary.tensor τ unitary
  assertE (product.getDimension = 2 ^ 2)
  assertIs true (product.closeToArr τ (Arr.identity (2 ^ 2)) none)
  let product ← (← sigmax τ).tensor τ (← sigmax τ)
  assertE (product.getDimension = 2 ^ 2)
  assertIs false (product.closeToArr τ (Arr.identity (2 ^ 2)) none)
  let product ← product.leftMultiply τ product
  assertIs true (product.closeToArr τ (Arr.identity (2 ^ 2)) none)

/-- test_unitary.py:95-107. -/
noncomputable def multiply (τ : Arith) : Except PyErr Unit := do
  let identity ← Unitary.identity τ 2
  let product ← Unitary.new τ 2
  let product ← product.leftMultiply τ (← sigmax τ)
  assertIs true (product.closeTo τ (← sigmax τ) none)
  let product ← product.rightMultiply τ (← sigmay τ)
  assertIs true (product.closeTo τ (← sigmaz τ) none)
  let product ← product.leftMultiply τ (← sigmaz τ)
  assertIs true (product.closeTo τ identity none)

/-- test_unitary.py:109-127. -/
noncomputable def definitions (τ : Arith) : Except PyErr Unit := do
  let identity1q ← Unitary.identity τ 2
  let h ← h τ
  assertIs true ((← h.leftMultiply τ h).closeTo τ identity1q none)
  let t ← t τ
  assertIs true ((← (← (← t.leftMultiply τ t).leftMultiply τ t).leftMultiply τ t).closeTo τ (← sigmaz τ) none)
  let identity3q ← Unitary.identity τ 8
  let ccnot ← ccnot τ
  assertIs true ((← ccnot.leftMultiply τ ccnot).closeTo τ identity3q none)
  let qecc ← qeccPhaseFlip τ
  assertIs true ((← qecc.leftMultiply τ (← qecc.inverse τ)).closeTo τ identity3q none)

/-- One round of the loop in `test_rphi` (test_unitary.py:132-136). -/
noncomputable def rphiOnce (τ : Arith) (θ : ℝ) : Except PyErr Unit := do
  assertIs true ((← rphi τ θ 0).closeTo τ (← rx τ θ) none)
  assertIs true ((← rphi τ θ (Real.pi / 2)).closeTo τ (← ry τ θ) none)

/-- test_unitary.py:129-136. -/
noncomputable def rphi (τ : Arith) : Except PyErr Unit :=
  [0, Real.pi / 8, Real.pi / 4, Real.pi, 3 * Real.pi / 2, -Real.pi / 4].forM (rphiOnce τ)

/-- test_unitary.py:138-165. -/
noncomputable def displayName (τ : Arith) (fmt : ℕ → ℝ → String) : Except PyErr Unit := do
  let unitary ← Unitary.new τ 2 (some (τ.gate "test" [] phases)) (some "Rx")
  assertE ("Rx" = unitary.getDisplayName fmt)
  let unitary ← Unitary.new τ 2 (some unitary.getMatrix) (some "Rx") (some [("abc", (1, true))])
  assertE (Within "Rx" (unitary.getDisplayName fmt))
  let unitary ← Unitary.new τ 2 (some unitary.getMatrix) (some "Rx") (some [("abc", (1, true)), ("def", (2, false))])
  assertE (Within "Rx" (unitary.getDisplayName fmt))
  assertE (Within "abc" (unitary.getDisplayName fmt))
  assertE (Within "def" (unitary.getDisplayName fmt))

/-- test_unitary.py:167-173. -/
noncomputable def qasm (τ : Arith) (fmt : ℕ → ℝ → String) : Except PyErr Unit := do
  let unitary ← Unitary.new τ 2 (some (τ.gate "test" [] phases)) (some "Rcustom")
  assertE (unitary.getQasm fmt = "Rcustom" ++ "\t" ++ "q[0];")

/-- test_unitary.py:175-181. -/
noncomputable def jaqal (τ : Arith) (fmt : ℕ → ℝ → String) : Except PyErr Unit := do
  let unitary ← Unitary.new τ 2 (some (τ.gate "test" [] phases)) (some "Rcustom")
  assertE (unitary.getJaqal fmt = "Rcustom" ++ " q[0] ")

/-- One round of the loop in `test_gms` (test_unitary.py:185-187); the default angle is `π / 4`. -/
noncomputable def gmsOnce (τ : Arith) (n : ℕ) : Except PyErr Unit := do
  let u ← gms τ n (Real.pi / 4)
  assertIs true ((← (← (← u.leftMultiply τ u).leftMultiply τ u).leftMultiply τ u).closeTo τ
    (← Unitary.identity τ u.getDimension) none)

/-- test_unitary.py:183-187. -/
noncomputable def gms (τ : Arith) : Except PyErr Unit := [3, 4, 5].forM (gmsOnce τ)

/-! ## class TestParameterizedUnitary -/

/-- `ParameterizedUnitaryParameter(name, 0, 2 * np.pi, is_angle=True)` three times (test_unitary.py:206-213). -/
noncomputable def rotationParameters : Except PyErr (List Parameter) := do
  return [← Parameter.new "alpha" 0 (2 * Real.pi) true, ← Parameter.new "beta" 0 (2 * Real.pi) true,
    ← Parameter.new "gamma" 0 (2 * Real.pi) true]

/-- The local function `rotation_matrix` (test_unitary.py:195-203); a wrong number of arguments is a TypeError. -/
noncomputable def rotationMatrix (τ : Arith) : List ℝ → Except PyErr Arr
  | [α, β, γ] => .ok (τ.gate "test" [α, β, γ] (Arr.ofRows
    [[(Real.cos (β / 2) : ℂ) * exp (-I * (α + γ) / 2), -(Real.sin (β / 2) : ℂ) * exp (-I * (α - γ) / 2)],
     [(Real.sin (β / 2) : ℂ) * exp (I * (α - γ) / 2), (Real.cos (β / 2) : ℂ) * exp (I * (α + γ) / 2)]]))
  | _ => .error .typeError

/-- `[p.random_value() for p in parameters]`. -/
noncomputable def randomValues : List Parameter → PyM Rng (List ℝ)
  | [] => pure []
  | p :: ps => do
    let v ← p.randomValue
    let vs ← randomValues ps
    return v :: vs

/-- test_unitary.py:192-240.  The two assertions of non-empty lists (:222-225 and :234-237) only test that there are
parameters. -/
noncomputable def parameterizedRotation (τ : Arith) (fmt : ℕ → ℝ → String) : PyM Rng Unit := do
  let parameters ← PyM.lift rotationParameters
  let rotation ← PyM.lift (ParamUnitary.new 2 (rotationMatrix τ) parameters "R")
  let zeroRotation ← PyM.lift (rotation.asUnitary τ [0, 0, 0])
  PyM.lift (assertIs true (do zeroRotation.closeTo τ (← Unitary.identity τ 2) none))
  PyM.assert (Within "R" (zeroRotation.getDisplayName fmt))
  PyM.assert (parameters.map (fun p => Within p.name (zeroRotation.getDisplayName fmt)) ≠ [])
  let values ← randomValues parameters
  PyM.assert (∀ pv ∈ parameters.zip values, pv.1.IsValid pv.2)
  let randomRotation ← PyM.lift (rotation.asUnitary τ values)
  PyM.assert (Within "R" (randomRotation.getDisplayName fmt))
  PyM.assert (parameters.map (fun p => Within p.name (randomRotation.getDisplayName fmt)) ≠ [])
  PyM.lift (assertIs true (do
    (← randomRotation.leftMultiply τ (← randomRotation.inverse τ)).closeTo τ (← Unitary.identity τ 2) none))

/-- `get_parameters()[0].get_parameter_name()`. -/
def firstName (pu : ParamUnitary) : Except PyErr String :=
  match pu.parameters with
  | p :: _ => .ok p.name
  | [] => .error .indexError

/-- test_unitary.py:242-271. -/
noncomputable def parameterizedClassmethods (τ : Arith) : Except PyErr Unit := do
  let rotationXY ← ParamDefinitions.rotationXY τ
  let zeroRotation ← rotationXY.asUnitary τ [0, 0]
  assertIs true (do zeroRotation.closeTo τ (← Unitary.identity τ rotationXY.dimension) none)
  let rotationXYZ ← ParamDefinitions.rotationXYZ τ
  let zeroRotation ← rotationXYZ.asUnitary τ [0, 0, 0]
  assertIs true (do zeroRotation.closeTo τ (← Unitary.identity τ rotationXYZ.dimension) none)
  let xx ← ParamDefinitions.xx τ
  let fullRotation ← xx.asUnitary τ [2 * Real.pi]
  assertIs true (do fullRotation.closeTo τ (← Unitary.identity τ xx.dimension) none)
  let name ← firstName xx
  assertE (some (2 * Real.pi, true) = fullRotation.getParameterValue name)
  let gms ← ParamDefinitions.gms τ 2
  let gmsUnitary ← gms.asUnitary τ [Real.pi / 3]
  assertIs true (do gmsUnitary.closeTo τ (← (← ParamDefinitions.xx τ).asUnitary τ [Real.pi / 3]) none)
  let name ← firstName gms
  assertE (some (Real.pi / 3, true) = gmsUnitary.getParameterValue name)

/-- test_unitary.py:273-304. -/
noncomputable def parameterizedTimeEvolution (τ : Arith) : Except PyErr Unit := do
  let sigmax := Arr.ofRows [[0, 1], [1, 0]]
  let tMin : ℝ := -1.234
  let tMax : ℝ := 1.234
  let timeEvolution ← ParamDefinitions.timeEvolution τ sigmax tMin tMax
  let zeroTime ← timeEvolution.asUnitary τ [0]
  assertIs true (do zeroTime.closeTo τ (← Unitary.identity τ timeEvolution.dimension) none)
  let evolutionTime := tMax / 2
  let forward ← timeEvolution.asUnitary τ [evolutionTime]
  let backward ← timeEvolution.asUnitary τ [-evolutionTime]
  assertIs true (do forward.closeTo τ (← backward.inverse τ) none)
  let name ← firstName timeEvolution
  assertE (some (evolutionTime, false) = forward.getParameterValue name)
  assertE (some (-evolutionTime, false) = backward.getParameterValue name)
  raises (ParamDefinitions.timeEvolution τ sigmax tMax tMin)
  raises (timeEvolution.asUnitary τ [2 * tMax])

/-! ## Clients of the sequence classes

The tests of entries and sequences use the public interface, so they are programs of a client (Spec/History).  An
entry or sequence is held by its number. -/

/-- Perform a call and use what it shows. -/
noncomputable def perform {α : Type} (τ : Arith) (op : Op) (f : Client.Obs → Option α) : PyM Client α := fun c =>
  match c.step τ op with
  | (.ok obs, c') => match f obs with
    | some a => (.ok a, c')
    | none => (.error .dangling, c')
  | (.error e, c') => (.error e, c')

/-- A call without a result. -/
noncomputable def call (τ : Arith) (op : Op) : PyM Client Unit := perform τ op fun _ => some ()

/-- `UnitarySequenceEntry(u, qubits)`. -/
noncomputable def newEntry (τ : Arith) (u : Except PyErr Unitary) (qubits : List ℤ) : PyM Client ℕ := do
  let u ← PyM.lift u
  let c ← PyM.get
  call τ (.newEntry u qubits)
  return c.entries.length

/-- `UnitarySequence(dimension, entries)`, of a list or of a numpy array. -/
noncomputable def newSeq (τ : Arith) (dimension : ℕ) (isArray : Bool) (entries : List ℕ) : PyM Client ℕ := do
  let c ← PyM.get
  call τ (.newSeq dimension isArray entries)
  return c.seqs.length

/-- `s.inverse()`. -/
noncomputable def inverse (τ : Arith) (s : ℕ) : PyM Client ℕ := do
  let c ← PyM.get
  call τ (.inverse s)
  return c.seqs.length

/-- `UnitarySequence.combine(...)`. -/
noncomputable def combine (τ : Arith) (ss : List ℕ) : PyM Client ℕ := do
  let c ← PyM.get
  call τ (.combine ss)
  return c.seqs.length

/-- `s.product()`. -/
noncomputable def product (τ : Arith) (s : ℕ) : PyM Client Unitary := perform τ (.product s) fun
  | .unitary u => some u
  | _ => none

/-- `e.get_full_unitary(dimension)`. -/
noncomputable def fullUnitary (τ : Arith) (e dimension : ℕ) : PyM Client Unitary := perform τ (.fullUnitary e dimension) fun
  | .unitary u => some u
  | _ => none

/-- `s.get_length()`. -/
noncomputable def length (τ : Arith) (s : ℕ) : PyM Client ℕ := perform τ (.getLength s) fun
  | .length n => some n
  | _ => none

/-- Read an attribute of entry number `e`. -/
def entryAttr {α : Type} (f : EntryObj → α) (e : ℕ) : PyM Client α := fun c =>
  match c.entries[e]?.bind (c.world.entries[·]?) with
  | some o => (.ok (f o), c)
  | none => (.error .dangling, c)

/-- Read an attribute of sequence number `s`. -/
def seqAttr {α : Type} (f : SeqObj → α) (s : ℕ) : PyM Client α := fun c =>
  match c.seqs[s]?.bind (c.world.seqs[·]?) with
  | some o => (.ok (f o), c)
  | none => (.error .dangling, c)

/-- `assert s.get_length() == n`. -/
noncomputable def assertLength (τ : Arith) (s n : ℕ) : PyM Client Unit := do
  PyM.assert ((← length τ s) = n)

/-- `assert s.product().close_to(u)`. -/
noncomputable def assertProduct (τ : Arith) (s : ℕ) (u : Except PyErr Unitary) : PyM Client Unit := do
  let p ← product τ s
  PyM.lift (assertIs true (do p.closeTo τ (← u) none))

/-- `s.sequence_product = None`: clients of Python may set an attribute. -/
def clearProduct (s : ℕ) : PyM Client Unit := fun c =>
  match c.seqs[s]?.bind (fun r => (c.world.seqs[r]?).map (fun o => (r, o))) with
  | some (r, o) =>
    (.ok (), { c with world := { c.world with seqs := c.world.seqs.set r { o with product := none } } })
  | none => (.error .dangling, c)

/-! ## class TestUnitarySequenceEntry -/

/-- test_unitary.py:309-317. -/
noncomputable def entryIdentity (τ : Arith) : PyM Client Unit := do
  let entry ← newEntry τ (Unitary.identity τ 2) [0]
  PyM.assert ((← entryAttr (fun o => o.toVal.unitary.getDimension) entry) = 2)
  PyM.assert ((← entryAttr (fun o => o.toVal.applyTo) entry) = [0])
  [2, 4, 8, 16].forM fun D => do
    let u ← fullUnitary τ entry D
    PyM.lift (assertIs true (do u.closeTo τ (← Unitary.identity τ D) none))

/-- test_unitary.py:319-340. -/
noncomputable def entryCnot (τ : Arith) : PyM Client Unit := do
  let entry ← newEntry τ (cnot τ) [0, 1]
  raisesM (fullUnitary τ entry 2)
  let u ← fullUnitary τ entry 4
  PyM.lift (assertIs true (do u.closeTo τ (← cnot τ) none))
  let u ← fullUnitary τ entry 8
  PyM.lift (assertIs true (do u.closeTo τ (← (← cnot τ).tensor τ (← Unitary.identity τ 2)) none))
  let u ← fullUnitary τ entry 16
  PyM.lift (assertIs true (do u.closeTo τ (← (← cnot τ).tensor τ (← Unitary.identity τ 4)) none))
  PyM.lift (assertIs true (do (← u.leftMultiply τ u).closeTo τ (← Unitary.identity τ 16) none))

/-- test_unitary.py:342-352. -/
noncomputable def entryCnotSwapped (τ : Arith) : PyM Client Unit := do
  let entry ← newEntry τ (cnot τ) [1, 0]
  let u ← fullUnitary τ entry 4
  let expected ← PyM.lift (Unitary.new τ 4 (some (Arr.ofRows
    [[1, 0, 0, 0],
     [0, 0, 0, 1],
     [0, 0, 1, 0],
     [0, 1, 0, 0]])))
  PyM.lift (assertIs true (u.closeTo τ expected none))

/-! ## class TestUnitarySequence -/

/-- test_unitary.py:357-362. -/
noncomputable def sequenceDefault (τ : Arith) : PyM Client Unit := do
  let sequence ← newSeq τ 2 false []
  PyM.assert ((← seqAttr (fun o => o.dimension) sequence) = 2)
  let p ← product τ sequence
  PyM.lift (assertIs true (p.closeToArr τ (Arr.identity 2) none))

/-- The T gate written down in three tests (test_unitary.py:366, 376, 462). -/
noncomputable def tLiteral (τ : Arith) : Except PyErr Unitary :=
  Unitary.new τ 2 (some (τ.gate "test" [] (Arr.ofRows [[1, 0], [0, exp (I * Real.pi / 4)]])))

/-- `test_identity_roots_correct` and `test_identity_roots_incorrect` (test_unitary.py:364-372, 374-382): `k` times the
same entry object, in a numpy array. -/
noncomputable def identityRoots (τ : Arith) (k : ℕ) (expected : Bool) : PyM Client Unit := do
  let entry ← newEntry τ (tLiteral τ) [0]
  let sequence ← newSeq τ 2 true (List.replicate k entry)
  PyM.assert ((← seqAttr (fun o => o.dimension) sequence) = 2)
  assertLength τ sequence k
  let p ← product τ sequence
  PyM.lift (assertIs expected (p.closeToArr τ (Arr.identity 2) none))

/-- test_unitary.py:384-417. -/
noncomputable def appendAndRemove (τ : Arith) : PyM Client Unit := do
  let identity ← PyM.lift (Unitary.identity τ 2)
  let sequence ← newSeq τ 2 false []
  assertLength τ sequence 0
  assertProduct τ sequence (pure identity)
  call τ (.appendFirst sequence (← newEntry τ (sigmax τ) [0]) true)
  assertLength τ sequence 1
  assertProduct τ sequence (sigmax τ)
  call τ (.appendLast sequence (← newEntry τ (sigmay τ) [0]) true)
  assertLength τ sequence 2
  assertProduct τ sequence (sigmaz τ)
  call τ (.appendFirst sequence (← newEntry τ (sigmaz τ) [0]) true)
  assertLength τ sequence 3
  assertProduct τ sequence (pure identity)
  call τ (.removeLast sequence true)
  assertLength τ sequence 2
  assertProduct τ sequence (sigmay τ)
  call τ (.removeFirst sequence true)
  assertLength τ sequence 1
  assertProduct τ sequence (sigmax τ)
  call τ (.removeFirst sequence true)
  assertLength τ sequence 0
  assertProduct τ sequence (pure identity)

/-- test_unitary.py:419-458. -/
noncomputable def undo (τ : Arith) : PyM Client Unit := do
  let identity ← PyM.lift (Unitary.identity τ 2)
  let sequence ← newSeq τ 2 false []
  assertLength τ sequence 0
  raisesM (call τ (.undo sequence))
  call τ (.appendFirst sequence (← newEntry τ (sigmax τ) [0]) true)
  assertLength τ sequence 1
  assertProduct τ sequence (sigmax τ)
  call τ (.undo sequence)
  assertLength τ sequence 0
  assertProduct τ sequence (pure identity)
  raisesM (call τ (.undo sequence))
  call τ (.appendFirst sequence (← newEntry τ (sigmay τ) [0]) true)
  call τ (.appendFirst sequence (← newEntry τ (sigmay τ) [0]) true)
  assertLength τ sequence 2
  assertProduct τ sequence (pure identity)
  call τ (.removeLast sequence true)
  assertLength τ sequence 1
  assertProduct τ sequence (sigmay τ)
  call τ (.undo sequence)
  assertLength τ sequence 2
  assertProduct τ sequence (pure identity)
  raisesM (call τ (.undo sequence))

/-- `test_combine` (test_unitary.py:460-474). -/
noncomputable def sequenceCombine (τ : Arith) : PyM Client Unit := do
  let entry ← newEntry τ (tLiteral τ) [0]
  let sequence1 ← newSeq τ 2 true (List.replicate 3 entry)
  let sequence2 ← newSeq τ 2 false [← newEntry τ (sigmay τ) [0]]
  let combined ← combine τ [sequence1, sequence2]
  assertLength τ combined ((← length τ sequence1) + (← length τ sequence2))
  let p ← product τ combined
  let p1 ← product τ sequence1
  let p2 ← product τ sequence2
  PyM.lift (assertIs true (do p.closeTo τ (← p1.leftMultiply τ p2) none))

/-- `test_inverse` (test_unitary.py:476-489). -/
noncomputable def sequenceInverse (τ : Arith) : PyM Client Unit := do
  let rxEntry ← newEntry τ (rx τ (Real.pi / 3)) [0]
  let ryEntry ← newEntry τ (ry τ (Real.pi / 3)) [0]
  let sequence ← newSeq τ 2 false [rxEntry, ryEntry]
  let p ← product τ sequence
  let inverseSequence ← inverse τ sequence
  assertProduct τ inverseSequence (p.inverse τ)
  clearProduct inverseSequence
  assertProduct τ inverseSequence (p.inverse τ)

/-- A text method on sequence number `s`. -/
noncomputable def textOf (f : SRef → PyM World String) (s : ℕ) : PyM Client String := do
  let c ← PyM.get
  match c.seqs[s]? with
  | some r => PyM.zoom Client.world (fun c w => { c with world := w }) (f r)
  | none => PyM.raise .dangling

/-- `test_sequence_output_formats` (test_unitary.py:491-498): the three texts are not empty. -/
noncomputable def outputFormats (τ : Arith) (fmt : ℕ → ℝ → String) : PyM Client Unit := do
  let rxEntry ← newEntry τ (rx τ (Real.pi / 3)) [0]
  let ryEntry ← newEntry τ (ry τ (Real.pi / 3)) [0]
  let sequence ← newSeq τ 2 false [rxEntry, ryEntry]
  PyM.assert ((← textOf (Seq.getQasm τ fmt) sequence) ≠ "")
  PyM.assert ((← textOf (Seq.getJaqal τ fmt) sequence) ≠ "")
  PyM.assert ((← textOf (Seq.getDisplayOutput τ fmt) sequence) ≠ "")

end Stoq.Tests
