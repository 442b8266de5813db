import Verif.Model.PaperFidelity

/-!
# The curves of figure 3   (paper/fig3/fig3.ipynb)
-/

namespace Stoq

namespace Paper

/-- `ϵ_default` (fig3.ipynb, cell 1). -/
noncomputable def epsDefault : ℝ := 0.04

/-- `λ` (fig3.ipynb, cell 2): one panel for each value. -/
noncomputable def fig3Lambdas : List ℝ := [0, 0.25, 0.5, 0.75, 1]

/-- `np.linspace(start, stop, num=num)` for at least two points. -/
noncomputable def linspace (start stop : ℝ) (num : ℕ) : List ℝ :=
  (List.range num).map fun i : ℕ => start + (i : ℝ) * ((stop - start) / (num - 1))

/-- `n_qubits_list` (fig3.ipynb, cell 2); not only whole numbers. -/
noncomputable def fig3Qubits : List ℝ := linspace 2 15 100

/-- `K` (fig3.ipynb, cell 2). -/
noncomputable def fig3Shots : ℝ := 100

/-- The values `n`, `relative_std_rav` and `relative_std_xeb` of one panel (fig3.ipynb, cell 2), where
`N = 2**np.array(n_qubits_list)`.  The plots are left out. -/
noncomputable def fig3Panel (l : ℝ) : List (ℝ × ℝ × ℝ) :=
  fig3Qubits.map fun n =>
    let N := (2 : ℝ) ^ n
    (n, stdFRav fig3Shots N l epsDefault, stdFXeb fig3Shots N l)

end Paper

end Stoq
