import Mathlib.Data.Matrix.Mul
import Mathlib.Analysis.SpecialFunctions.Pow.Real
import Verif.Model.Num
import Verif.Model.Rng

/-!
# Fidelity estimates of the paper   (paper/fig3, fig4, fig5, fig8, fig9, notebooks)

The notebooks are cited by file, cell index (counted from 0, all cell types) and function or variable.  Arrays of
`system_dimension` (or `DIM`) numbers are functions on `Fin D`.  numpy division by zero gives `nan` or `inf` with a
warning; the definitions below are used only where the denominators are not zero.
-/

namespace Stoq

namespace Paper

/-- `success_rate` of `simulate_results_RAV` (fig5.ipynb, cell 1), and `success_rates` and `fidelities` of
fig8a.ipynb (cell 9), fig8cd.ipynb (cell 7), fig9a.ipynb (cell 7) and fig9cd.ipynb (cell 10):
`(noisy - 1/D) / (ideal - 1/D)` for the probabilities of the initial state. -/
noncomputable def successRate (D : ℕ) (noisy ideal : ℝ) : ℝ := (noisy - 1 / D) / (ideal - 1 / D)

/-- `xeb_fidelity` of `simulate_results_XEB` (fig5.ipynb, cell 1), the same lines in fig8b.ipynb (cell 9),
fig8cd.ipynb (cell 7), fig9b.ipynb (cell 7), fig9cd.ipynb (cell 12), and `fidelity` in
fig4/sequence-generation/ideal_rav_vs_xeb_simulations_2q.ipynb (cell 12, the same in the notebooks for 3 to 8
qubits). -/
noncomputable def xebFidelity {D : ℕ} (ideal measured : Fin D → ℝ) : ℝ :=
  let e_u := ∑ x, ideal x ^ 2
  let u_u := (∑ x, ideal x) / D
  let m_u := ∑ x, ideal x * measured x
  let y := m_u - u_u
  let x := e_u - u_u
  (x * y) / x ^ 2

/-- `ideal_output_probs` (ideal_rav_vs_xeb_simulations_2q.ipynb, cells 6 and 12): the squared absolute values of
`matrix @ initial_state`, where `initial_state` is the basis vector of `initial_state_index`. -/
noncomputable def idealOutputProbs {D : ℕ} (matrix : Arr) (start : Fin D) : Fin D → ℝ := fun x =>
  ‖(matrix.toMatrix D).mulVec (fun j => if j = start then 1 else 0) x‖ ^ 2

/-- `output_probs` (ideal_rav_vs_xeb_simulations_2q.ipynb, cells 6 and 12):
`np.add((1-f) * ideal, f * [1/D, …, 1/D])` for the mixed state fraction `f`. -/
noncomputable def outputProbs {D : ℕ} (f : ℝ) (ideal : Fin D → ℝ) : Fin D → ℝ := fun x =>
  (1 - f) * ideal x + f * (1 / D)

/-- `[int(np.random.random() < p) for _ in range(n_shots)]` (ideal_rav_vs_xeb_simulations_2q.ipynb, cells 6
and 12). -/
noncomputable def bernoulliShots (p : ℝ) : ℕ → PyM Rng (List ℝ)
  | 0 => return []
  | n + 1 => do
    let u ← Rng.randomSample
    let rest ← bernoulliShots p n
    return (open Classical in if u < p then 1 else 0) :: rest

/-- `np.mean` of a list that is not empty. -/
noncomputable def mean (l : List ℝ) : ℝ := l.sum / l.length

/-- `scaled_fidelity` (ideal_rav_vs_xeb_simulations_2q.ipynb, cell 6). -/
noncomputable def scaledFidelity (D : ℕ) (measurements : List ℝ) : ℝ :=
  (mean measurements - 1 / D) * (D / (D - 1))

/-- One repetition of the simulated RAV experiment (ideal_rav_vs_xeb_simulations_2q.ipynb, cell 6): the value of
`scaled_fidelity` for one sequence matrix, mixed state fraction and number of shots. -/
noncomputable def ravRepetition {D : ℕ} (matrix : Arr) (start : Fin D) (f : ℝ) (nShots : ℕ) : PyM Rng ℝ := do
  let ideal := idealOutputProbs matrix start
  PyM.assert (isclose ((∑ x, ideal x : ℝ) : ℂ) 1)
  let measurements ← bernoulliShots (outputProbs f ideal start) nShots
  return scaledFidelity D measurements

/-- `random_sample(size)`: that many uniform numbers. -/
noncomputable def randomSamples : ℕ → PyM Rng (List ℝ)
  | 0 => return []
  | n + 1 => do
    let u ← Rng.randomSample
    let rest ← randomSamples n
    return u :: rest

/-- `np.random.choice(n, size=size, p=p)`: the checks of `Rng.choiceP`, then one uniform number per element. -/
noncomputable def choiceSize (n : ℕ) (p : List ℝ) (size : ℕ) : PyM Rng (List ℕ) := do
  PyM.lift (raiseUnless (n > 0) .valueError)
  PyM.lift (raiseUnless (p.length = n) .valueError)
  PyM.lift (raiseUnless (∀ x ∈ p, 0 ≤ x) .valueError)
  PyM.lift (raiseUnless (|p.sum - 1| ≤ 1 / 2 ^ 26) .valueError)
  let cdf := (Rng.cumsum p).map (· / p.sum)
  let us ← randomSamples size
  return us.map (Rng.searchsortedRight cdf)

/-- `measurement_probs` (ideal_rav_vs_xeb_simulations_2q.ipynb, cell 12):
`[np.count_nonzero(measurements == k) / n_shots for k in range(D)]`. -/
noncomputable def measurementProbs {D : ℕ} (measurements : List ℕ) (nShots : ℕ) : Fin D → ℝ := fun k =>
  (measurements.count k.val : ℝ) / nShots

/-- One repetition of the simulated XEB experiment (ideal_rav_vs_xeb_simulations_2q.ipynb, cell 12): the value of
`fidelity`.  The first assignment to `measurements` draws numbers that are not used. -/
noncomputable def xebRepetition {D : ℕ} (matrix : Arr) (start : Fin D) (f : ℝ) (nShots : ℕ) : PyM Rng ℝ := do
  let ideal := idealOutputProbs matrix start
  PyM.assert (isclose ((∑ x, ideal x : ℝ) : ℂ) 1)
  let output := outputProbs f ideal
  let _ ← bernoulliShots (output start) nShots
  let measurements ← choiceSize D (List.ofFn output) nShots
  let measured : Fin D → ℝ := measurementProbs measurements nShots
  PyM.assert (isclose ((∑ x, measured x : ℝ) : ℂ) 1)
  return xebFidelity ideal measured

/-- `std_f_rav` (fig3.ipynb and fig4.ipynb, cell 1).  `np.sqrt` of a negative number is `nan`; here 0. -/
noncomputable def stdFRav (K N l e : ℝ) : ℝ :=
  √((1 / K) * (N / (N * (1 - e) - 1)) ^ 2 * ((1 - l) * (1 - e) + l / N) * (1 - (1 - l) * (1 - e) - l / N))

/-- `std_f_xeb` (fig3.ipynb and fig4.ipynb, cell 1), called with `p2_sum`, `p3_sum` and `p4_sum` in fig4.ipynb
(cell 3); the defaults `1/2`, `1/3` and `1/4` are those of the code. -/
noncomputable def stdFXeb (K N l : ℝ) (p2 : ℝ := 1 / 2) (p3 : ℝ := 1 / 3) (p4 : ℝ := 1 / 4) : ℝ :=
  √((1 / K) * (N / (p2 * N - 1)) ^ 2 *
    (p2 * (l / N - (l / N) ^ 2) + p3 * (1 - l) * (1 - 2 * l / N) - p4 * (1 - l) ^ 2))

end Paper

end Stoq
