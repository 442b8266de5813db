import Verif.Model.TestsCompile

/-!
# The example notebook (examples/stoq_example.ipynb)

The cells in order, as one program.  A `print` with an f-string is modelled by the values it prints; the elapsed time is
not modelled.  The limit of 500 steps is an argument `m`, so that one can ask how the results depend on it.  `sample` is
the matrix `scipy.stats.unitary_group.rvs(4)` in `Unitary.random`.
-/

namespace Stoq.Example

open Tests

/-- What the two printing cells after a compilation print: the number of gates, the last cost, the number of steps and
the QASM text. -/
structure Printed where
  length : ℕ
  finalCost : ℝ
  steps : ℕ
  qasm : String

/-- `compiler.compile(target_unitary, max_step_count=m)`; the result is the number of the sequence and `cost_by_step`. -/
noncomputable def compiled (τ : Arith) (C : Compiler) (target : Unitary) (m : ℤ) : PyM Client (ℕ × List ℝ) := fun c =>
  match C.compile τ target none m c.world with
  | (.ok R, w) => (.ok (c.seqs.length, R.costByStep), { c with world := w, seqs := c.seqs ++ [R.sequence] })
  | (.error e, w) => (.error e, { c with world := w })

/-- `costs[-1]`. -/
def lastCost (costs : List ℝ) : Except PyErr ℝ :=
  match costs.getLast? with
  | some x => .ok x
  | none => .error .indexError

/-- The third and fourth cell, and with another target the fifth and sixth. -/
noncomputable def report (τ : Arith) (fmt : ℕ → ℝ → String) (C : Compiler) (m : ℤ) (target : Unitary) :
    PyM Client Printed := do
  let r ← compiled τ C target m
  let n ← length τ r.1
  let cost ← PyM.lift (lastCost r.2)
  let text ← perform τ (.text .qasm fmt r.1) fun
    | .text t => some t
    | _ => none
  return ⟨n, cost, r.2.length, text⟩

/-- The notebook: both reports. -/
noncomputable def notebook (τ : Arith) (fmt : ℕ → ℝ → String) (sample : Arr) (m : ℤ) : PyM Client (Printed × Printed) := do
  let rotation ← PyM.lift (do Primitive.new (.inr (← ParamDefinitions.rotationXY τ)))
  let ms ← PyM.lift (do Primitive.new (.inr (← ParamDefinitions.xx τ)))
  let compiler ← newCompiler (2 ^ 2) [rotation, ms]
  let target ← PyM.lift (UnitaryDefinitions.xx τ)
  let first ← report τ fmt compiler m target
  let target ← PyM.lift (Unitary.random τ (2 ^ 2) sample)
  let second ← report τ fmt compiler m target
  return (first, second)

end Stoq.Example
