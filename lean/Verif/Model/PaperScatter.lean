import Verif.Model.PaperFidelity
import Verif.Model.PaperBins

/-!
# Repeated simulated experiments   (paper/fig4/sequence-generation/ideal_rav_vs_xeb_simulations_2q.ipynb)

Cells 6 and 8 (RAV), 12 and 14 (XEB), the same in the notebooks for 3 to 8 qubits, for one circuit and one mixed state fraction.
Cells 8 and 14 draw no random numbers, so that it makes no difference that the notebook first runs cells 6 and 12 for all
circuits and fractions: this only changes where on the tape the numbers of a circuit and fraction begin.
-/

namespace Stoq

namespace Paper

/-- `for _ in range(repetitions)` (cells 6 and 12), with the list of values appended. -/
noncomputable def repeatRuns (m : PyM Rng ℝ) : ℕ → PyM Rng (List ℝ)
  | 0 => return []
  | r + 1 => do
    let y ← m
    let ys ← repeatRuns m r
    return y :: ys

/-- `rav_x_data` and `rav_y_data` (cell 6), `xeb_x_data` and `xeb_y_data` (cell 12): the pairs of both lists, for a loop over
`n_shots_list`.  What a repetition computes before its measurements is the same for all of them. -/
noncomputable def shotData (repetition : ℕ → PyM Rng ℝ) (repetitions : ℕ) : List ℕ → PyM Rng (List (ℕ × ℝ))
  | [] => return []
  | nShots :: shots => do
    let ys ← repeatRuns (repetition nShots) repetitions
    let rest ← shotData repetition repetitions shots
    return ys.map (fun y => (nShots, y)) ++ rest

/-- `rav_std_data` (cell 8) and `xeb_std_data` (cell 14): `np.std` of the values whose entry in `x_data` is `n_shots`. -/
noncomputable def stdData (shots : List ℕ) (data : List (ℕ × ℝ)) : List ℝ :=
  shots.map fun nShots => std ((data.filter fun p => p.1 = nShots).map Prod.snd)

/-- Cells 6 and 8. -/
noncomputable def ravStdData {D : ℕ} (matrix : Arr) (start : Fin D) (f : ℝ) (shots : List ℕ) (repetitions : ℕ) :
    PyM Rng (List ℝ) := do
  let data ← shotData (ravRepetition matrix start f) repetitions shots
  return stdData shots data

/-- Cells 12 and 14. -/
noncomputable def xebStdData {D : ℕ} (matrix : Arr) (start : Fin D) (f : ℝ) (shots : List ℕ) (repetitions : ℕ) :
    PyM Rng (List ℝ) := do
  let data ← shotData (xebRepetition matrix start f) repetitions shots
  return stdData shots data

end Paper

end Stoq
