import Verif.Model.Tests
import Verif.Spec.Task

/-!
# The unit tests of compilers, Hamiltonians and verification
(tests/test_compiler.py, tests/test_hamiltonian.py, tests/test_verification.py)

As in Model/Tests.  A limit on the number of steps that a test leaves at its default value is an argument `m` here, so
that one can ask how the test depends on it.  `np.random.seed` (test_compiler.py:79) fixes the random numbers; theorems
are about all of them or about their distribution.  `np.isreal` holds by typing.  Not modelled: calls with `None`
instead of a unitary, a matrix or a list of terms (test_compiler.py:21-25, test_hamiltonian.py:15-18 and 214-217), which
typing excludes.
-/

namespace Stoq

namespace Action

/-- `CompilerAction.is_remove` (compiler_action.py:33-47); only the tests use it. -/
def isRemove (a : Action) : Bool := a == removeFirst || a == removeLast

end Action

namespace Tests

open Complex UnitaryDefinitions

/-- `Compiler(dimension, primitives)`. -/
noncomputable def newCompiler (dimension : ℕ) (primitives : List Primitive) : PyM Client Compiler :=
  PyM.zoom Client.world (fun c w => { c with world := w }) (Compiler.new dimension primitives)

/-- A call that returns a sequence; the client holds it by its number. -/
noncomputable def returned (τ : Arith) (T : Task) : PyM Client ℕ := fun c =>
  match c.task τ T with
  | (.ok _, c') => (.ok c.seqs.length, c')
  | (.error e, c') => (.error e, c')

/-- `assert s.product().close_to(u, threshold)`. -/
noncomputable def assertClose (τ : Arith) (s : ℕ) (u : Except PyErr Unitary) (threshold : Option ℝ) : PyM Client Unit := do
  let p ← product τ s
  PyM.lift (assertIs true (do p.closeTo τ (← u) threshold))

/-- `assert u.close_to(s.product(), threshold)`. -/
noncomputable def assertCloseTo (τ : Arith) (u : Unitary) (s : ℕ) (threshold : Option ℝ) : PyM Client Unit := do
  let p ← product τ s
  PyM.lift (assertIs true (u.closeTo τ p threshold))

/-- `assert s.get_qasm()` and the like: the text is not empty. -/
noncomputable def assertText (f : SRef → PyM World String) (s : ℕ) : PyM Client Unit := do
  PyM.assert ((← textOf f s) ≠ "")

/-! ## class TestCompiler -/

/-- test_compiler.py:27-36. -/
noncomputable def actionEnum : Except PyErr Unit := do
  assertE (Action.appendFirst.isAppend = true)
  assertE (Action.appendLast.isAppend = true)
  assertE (¬ Action.removeFirst.isAppend = true)
  assertE (¬ Action.removeLast.isAppend = true)
  assertE (Action.removeFirst.isRemove = true)
  assertE (Action.removeLast.isRemove = true)
  assertE (¬ Action.appendFirst.isRemove = true)
  assertE (¬ Action.appendLast.isRemove = true)

/-- What three tests assert about the result (test_compiler.py:48-50, 64-66, 86-88). -/
noncomputable def assertCompiled (τ : Arith) (fmt : ℕ → ℝ → String) (s : ℕ) (target : Unitary) : PyM Client Unit := do
  assertClose τ s (pure target) none
  assertText (Seq.getQasm τ fmt) s
  assertText (Seq.getDisplayOutput τ fmt) s

/-- test_compiler.py:38-52. -/
noncomputable def compileIdentity (τ : Arith) (fmt : ℕ → ℝ → String) (m : ℤ) : PyM Client Unit := do
  let primitive ← PyM.lift (do Primitive.new (.inl (← Unitary.identity τ 2)) none)
  let compiler ← newCompiler 2 [primitive]
  let target ← PyM.lift (Unitary.identity τ 2)
  let s ← returned τ (.compile compiler target none m)
  assertCompiled τ fmt s target

/-- test_compiler.py:54-68. -/
noncomputable def compileSigmaz (τ : Arith) (fmt : ℕ → ℝ → String) (m : ℤ) : PyM Client Unit := do
  let x ← PyM.lift (do Primitive.new (.inl (← rx τ (Real.pi / 2))) none)
  let y ← PyM.lift (do Primitive.new (.inl (← ry τ (Real.pi / 2))) none)
  let compiler ← newCompiler 2 [x, y]
  let target ← PyM.lift (sigmaz τ)
  let s ← returned τ (.compile compiler target none m)
  assertCompiled τ fmt s target

/-- test_compiler.py:70-90. -/
noncomputable def compileTwoQubits (τ : Arith) (fmt : ℕ → ℝ → String) (m : ℤ) : PyM Client Unit := do
  let x ← PyM.lift (do Primitive.new (.inl (← rx τ (Real.pi / 2))) none)
  let y ← PyM.lift (do Primitive.new (.inl (← cnot τ)) none)
  let compiler ← newCompiler 4 [x, y]
  let e1 ← newEntry τ (cnot τ) [0, 1]
  let e2 ← newEntry τ (rx τ Real.pi) [0]
  let sequence ← newSeq τ 4 false [e1, e2]
  let target ← product τ sequence
  let s ← returned τ (.compile compiler target none m)
  assertCompiled τ fmt s target

/-- `len(s.get_sequence_entries())`. -/
noncomputable def entryCount (τ : Arith) (s : ℕ) : PyM Client ℕ := perform τ (.getEntries s) fun
  | .entries l => some l.length
  | _ => none

/-- `s.get_sequence_entries()[0]`. -/
noncomputable def firstEntry (τ : Arith) (s : ℕ) : PyM Client ℕ := do
  let c ← PyM.get
  let entries ← perform τ (.getEntries s) fun
    | .entries l => some l
    | _ => none
  match entries with
  | [] => PyM.raise .indexError
  | _ :: _ => return c.entries.length

/-- test_compiler.py:92-139; `rotation_matrix` and its parameters are those of test_unitary.py. -/
noncomputable def compileSigmazApproximate (τ : Arith) (m : ℤ) : PyM Client Unit := do
  let parameters ← PyM.lift rotationParameters
  let rotation ← PyM.lift (ParamUnitary.new 2 (rotationMatrix τ) parameters "R")
  let primitive ← PyM.lift (Primitive.new (.inr rotation) none)
  let compiler ← newCompiler 2 [primitive]
  let target ← PyM.lift (sigmaz τ)
  let s ← returned τ (.compile compiler target (some 0.95) m)
  assertClose τ s (pure target) (some 0.95)
  let e ← firstEntry τ s
  let u ← fullUnitary τ e 2
  PyM.assert (u.getParameterValue "bogus" = none)
  PyM.assert (∀ p ∈ parameters, u.getParameterValue p.name ≠ none)

/-! ## class TestHamiltonian -/

/-- The matrix of three tests (test_hamiltonian.py:21-23, 33, 225). -/
noncomputable def shifted : Arr := Arr.ofRows [[3, 2 + I], [2 - I, 3]]

/-- test_hamiltonian.py:20-30. -/
noncomputable def termsMismatched : Except PyErr Unit := do
  let term1 ← HamiltonianTerm.new shifted
  let term2 ← HamiltonianTerm.new (Arr.ofRows
    [[3, 2 + I, 0, 0],
     [2 - I, 0, 0, 0],
     [0, 0, 0, 0],
     [0, 0, 0, 3]])
  raises (Hamiltonian.new [term1, term2])

/-- test_hamiltonian.py:32-49. -/
noncomputable def simpleTerms (τ : Arith) : Except PyErr Unit := do
  let term ← HamiltonianTerm.new shifted
  let identity ← Unitary.identity τ term.dimension
  let h2 ← Hamiltonian.new [term, term]
  let h3 ← Hamiltonian.new [term, term, term]
  assertE (term.dimension = h2.dimension)
  assertE (term.dimension = h3.dimension)
  let u ← h2.getTimeEvolutionOperator τ 0
  assertIs true (u.closeTo τ identity none)
  let time : ℝ := 1.234
  let u2 ← h2.getTimeEvolutionOperator τ (3 * time)
  let u3 ← h3.getTimeEvolutionOperator τ (2 * time)
  assertIs false (u2.closeTo τ identity none)
  assertIs true (u2.closeTo τ u3 none)

/-- The Hamiltonian `a X + b Y` (test_hamiltonian.py:52-57, 71-76, 100-105, 119-124, 148-153). -/
noncomputable def xyHamiltonian (a b : ℂ) : Except PyErr Hamiltonian := do
  let x ← HamiltonianTerm.new ((Arr.ofRows [[0, 1], [1, 0]]).smul a)
  let y ← HamiltonianTerm.new ((Arr.ofRows [[0, -I], [I, 0]]).smul b)
  Hamiltonian.new [x, y]

/-- test_hamiltonian.py:51-68. -/
noncomputable def idealSequence (τ : Arith) : PyM Client Unit := do
  let h ← PyM.lift (xyHamiltonian 2 (-3))
  let time : ℝ := 1.234
  let u ← PyM.lift (h.getTimeEvolutionOperator τ time)
  let s ← returned τ (.ideal h time 1000)
  assertLength τ s 1000
  assertCloseTo τ u s none

/-- test_hamiltonian.py:70-97. -/
noncomputable def trotterization (τ : Arith) : PyM Client Unit := do
  let h ← PyM.lift (xyHamiltonian 2 (-3))
  let time : ℝ := 1.234
  let u ← PyM.lift (h.getTimeEvolutionOperator τ time)
  let s ← returned τ (.trotter h time 20 false)
  assertLength τ s (20 * 2)
  let r ← returned τ (.trotter h time 20 true)
  assertLength τ r (20 * 2)
  assertCloseTo τ u s (some 0.95)
  assertCloseTo τ u r (some 0.95)
  let p ← product τ s
  let q ← product τ r
  PyM.lift (assertIs false (p.closeTo τ q none))

/-- test_hamiltonian.py:99-116. -/
noncomputable def qdrift (τ : Arith) : PyM Client Unit := do
  let h ← PyM.lift (xyHamiltonian 10 (-1))
  let time : ℝ := 0.543
  let u ← PyM.lift (h.getTimeEvolutionOperator τ time)
  let s ← returned τ (.qdrift h time 1000)
  assertLength τ s 1000
  assertCloseTo τ u s (some 0.95)

/-- test_hamiltonian.py:118-145. -/
noncomputable def stoq (τ : Arith) (fmt : ℕ → ℝ → String) : PyM Client Unit := do
  let h ← PyM.lift (xyHamiltonian 2 (-3))
  let time : ℝ := 0.543
  let u ← PyM.lift (h.getTimeEvolutionOperator τ time)
  let maxTStep := time / 10
  let s ← returned τ (.stoq h time maxTStep (some 0.9) false)
  assertCloseTo τ u s (some 0.9)
  let s ← returned τ (.stoq h time maxTStep (some 0.9) true)
  assertCloseTo τ u s (some 0.9)
  assertText (Seq.getQasm τ fmt) s

/-- test_hamiltonian.py:147-167; `fuel` bounds the loop that may run for ever. -/
noncomputable def hamiltonianRav (τ : Arith) (fmt : ℕ → ℝ → String) (fuel : ℕ) : PyM Client Unit := do
  let h ← PyM.lift (xyHamiltonian 2 (-3))
  let time : ℝ := 0.543
  let maxTStep := time / 10
  let s ← returned τ (.hamiltonianRav h time maxTStep (some 0.9) true fuel)
  assertClose τ s (Unitary.identity τ h.dimension) (some 0.9)
  assertText (Seq.getQasm τ fmt) s

/-- The Hamiltonian of two qubits (test_hamiltonian.py:170-179); the entries of the Kronecker products are 0, 1 and `±i`
and need no rounding. -/
noncomputable def twoQubitHamiltonian : Except PyErr Hamiltonian := do
  let sigmax := Arr.ofRows [[0, 1], [1, 0]]
  let sigmay := Arr.ofRows [[0, -I], [I, 0]]
  let xx ← HamiltonianTerm.new ((sigmax.kron sigmax).smul 2)
  let y1 ← HamiltonianTerm.new ((sigmay.kron (.identity 2)).smul 1.5)
  let y2 ← HamiltonianTerm.new (((Arr.identity 2).kron sigmay).smul 1.1)
  Hamiltonian.new [xx, y1, y2]

/-- test_hamiltonian.py:169-209. -/
noncomputable def hamiltonianTwoQubits (τ : Arith) : PyM Client Unit := do
  let h ← PyM.lift twoQubitHamiltonian
  let u ← PyM.lift (h.getTimeEvolutionOperator τ 0)
  PyM.assert (u.getDimension = h.dimension)
  PyM.lift (assertIs true (do u.closeTo τ (← Unitary.identity τ h.dimension) none))
  let time : ℝ := 1.234
  let u ← PyM.lift (h.getTimeEvolutionOperator τ time)
  let trotter ← returned τ (.trotter h time 20 true)
  let qdrift ← returned τ (.qdrift h time 1000)
  assertLength τ qdrift 1000
  assertCloseTo τ u trotter (some 0.95)
  assertCloseTo τ u qdrift (some 0.95)
  let p ← product τ trotter
  PyM.lift (assertIs false (u.closeTo τ p none))
  let q ← product τ qdrift
  PyM.lift (assertIs false (u.closeTo τ q none))
  let p ← product τ trotter
  let q ← product τ qdrift
  PyM.lift (assertIs false (p.closeTo τ q none))

/-! ## class TestHamiltonianTerm -/

/-- test_hamiltonian.py:219-222. -/
noncomputable def nonHermitian : Except PyErr Unit := raises (HamiltonianTerm.new (Arr.ofRows [[1, 0], [1, 1]]))

/-- test_hamiltonian.py:224-237. -/
noncomputable def simpleHermitian : Except PyErr Unit := do
  let term ← HamiltonianTerm.new shifted
  assertE (term.dimension = shifted.rows)
  assertE (allclose shifted term.getMatrix)
  assertE (term.coefficient ≥ 0)
  assertE (allclose shifted (term.normalizedMatrix.smul term.coefficient))
  assertE (isclose term.normalizedMatrix.maxSingularValue 1)

/-! ## class TestVerification -/

/-- The two primitives of these tests (test_verification.py:19-21, 39-41, 56-59, 82-85). -/
noncomputable def nativePrimitives (τ : Arith) : Except PyErr (Primitive × Primitive) := do
  let r ← Primitive.new (.inr (← ParamDefinitions.rotationXY τ)) none
  let x ← Primitive.new (.inr (← ParamDefinitions.xx τ)) none
  return (r, x)

/-- test_verification.py:16-34. -/
noncomputable def rav (τ : Arith) (fmt : ℕ → ℝ → String) (m : ℤ) : PyM Client Unit := do
  let (r, x) ← PyM.lift (nativePrimitives τ)
  let s ← returned τ (.rav 4 [r, x] false 10 (some 0.5) 0.5 none m)
  assertClose τ s (Unitary.identity τ 4) (some 0.5)
  assertText (Seq.getQasm τ fmt) s
  assertText (Seq.getJaqal τ fmt) s

/-- test_verification.py:36-51. -/
noncomputable def ravNoInverse (τ : Arith) (fmt : ℕ → ℝ → String) : PyM Client Unit := do
  let (r, x) ← PyM.lift (nativePrimitives τ)
  let s ← returned τ (.rav 4 [r, x] false 10 (some 0) 0.5 none 10000)
  assertLength τ s 10
  assertText (Seq.getQasm τ fmt) s
  assertText (Seq.getJaqal τ fmt) s

/-- test_verification.py:53-77. -/
noncomputable def layeredRav (τ : Arith) (fmt : ℕ → ℝ → String) (m : ℤ) : PyM Client Unit := do
  let (r, x) ← PyM.lift (nativePrimitives τ)
  let s ← returned τ (.layeredRav 4 [(r, 3), (x, 1)] 10 (some 0.5) 0.5 m)
  PyM.assert ((← entryCount τ s) % 4 = 0)
  assertClose τ s (Unitary.identity τ 4) (some 0.5)
  assertText (Seq.getQasm τ fmt) s
  assertText (Seq.getJaqal τ fmt) s

/-- test_verification.py:79-96; `generate_xeb_sequence` is the layered function with threshold 0 and no steps. -/
noncomputable def xeb (τ : Arith) (fmt : ℕ → ℝ → String) : PyM Client Unit := do
  let (r, x) ← PyM.lift (nativePrimitives τ)
  let s ← returned τ (.layeredRav 4 [(r, 3), (x, 1)] 10 (some 0) 0.5 0)
  assertLength τ s (4 * 10)
  assertText (Seq.getQasm τ fmt) s
  assertText (Seq.getJaqal τ fmt) s

end Tests

end Stoq
