import Verif.Model.Compiler
import Mathlib.Data.ENNReal.Basic

/-!
# The number of steps of a search
-/

namespace Stoq

/-- The number of steps that a call of the compiler records; infinite if it raises an exception. -/
noncomputable def stepCount (out : Except PyErr CompilerResult × World) : ENNReal :=
  match out.1 with
  | .ok R => R.costByStep.length
  | .error _ => ⊤

end Stoq
