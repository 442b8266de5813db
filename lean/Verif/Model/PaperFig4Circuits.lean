import Verif.Model.PaperGenerate
import Verif.Model.PaperFig4

/-!
# The matrices with which the experiments of figure 4 are simulated

Cells 6 and 12 of paper/fig4/sequence-generation/ideal_rav_vs_xeb_simulations_2q.ipynb:
`rav_result.compiled_sequence.product().get_matrix()` for each of the circuits.  The matrices are computed before the simulations
and not between them; no random numbers are drawn for them.
-/

namespace Stoq

namespace Paper

/-- `rav_sequence_matrix` or `xeb_sequence_matrix` for each circuit. -/
noncomputable def sequenceMatrices (τ : Arith) : List (ℕ × String) → PyM Client (List Arr)
  | [] => pure []
  | a :: rest => do
    let product ← Tests.product τ a.1
    let others ← sequenceMatrices τ rest
    return product.matrix :: others

end Paper

end Stoq
