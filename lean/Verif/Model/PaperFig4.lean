import Verif.Model.PaperScatter
import Verif.Model.PaperFig3

/-!
# The points and curves of figure 4   (paper/fig4/fig4.ipynb)

The standard deviations are those which the notebooks in fig4/sequence-generation compute and store.  Loading of files is left
out, and so are `theory_std_rav` and `theory_std_xeb`, which are computed from the files of the circuits but not used.
-/

namespace Stoq

namespace Paper

/-- A loop over a list that stores what its body returns. -/
noncomputable def forEach {α β : Type} (body : α → PyM Rng β) : List α → PyM Rng (List β)
  | [] => return []
  | a :: l => do
    let b ← body a
    let rest ← forEach body l
    return b :: rest

/-- `rav_std_data` or `xeb_std_data` (ideal_rav_vs_xeb_simulations_2q.ipynb, cells 6, 8, 12 and 14): the loops over the circuits
and the mixed state fractions.  A dictionary with the circuits' indices or the fractions as keys is a list in the order of the
loop; the fractions are all different. -/
noncomputable def circuitStds (experiment : Arr → ℝ → PyM Rng (List ℝ)) (fractions : List ℝ) (circuits : List Arr) :
    PyM Rng (List (List (List ℝ))) :=
  forEach (fun matrix => forEach (experiment matrix) fractions) circuits

/-- An entry of a list; `IndexError` outside. -/
def entryAt {α : Type} (l : List α) (i : ℕ) : Except PyErr α :=
  match l[i]? with
  | some x => .ok x
  | none => .error .indexError

/-- `y_raw_data_rav` or `y_raw_data_xeb` for the fraction with the index `j` (fig4.ipynb, cell 3), where
`n_shots_idx = np.where(np.array(n_shots_list) == n_shots)[0][0]`. -/
def rawData (stds : List (List (List ℝ))) (shots : List ℕ) (nShots j : ℕ) : Except PyErr (List ℝ) := do
  let idx ← entryAt ((List.range shots.length).filter fun i => shots[i]? = some nShots) 0
  stds.mapM fun d => do
    let l ← entryAt d j
    entryAt l idx

/-- The height of the point and its error bar (fig4.ipynb, cell 3). -/
noncomputable def fig4Point (raw : List ℝ) : ℝ × ℝ := (mean raw, std raw / √raw.length)

/-- The dashed lines: simulation of all circuits and fractions, and the point for one fraction. -/
noncomputable def fig4Dashed (experiment : Arr → ℝ → List ℕ → ℕ → PyM Rng (List ℝ)) (circuits : List Arr) (fractions : List ℝ)
    (shots : List ℕ) (repetitions nShots j : ℕ) : PyM Rng (ℝ × ℝ) := do
  let stds ← circuitStds (fun matrix f => experiment matrix f shots repetitions) fractions circuits
  let raw ← PyM.lift (rawData stds shots nShots j)
  return fig4Point raw

/-- The solid lines (fig4.ipynb, cell 3): `λ`, `relative_std_rav` and `relative_std_xeb` for `n` qubits; `np.linspace` has 50
points. -/
noncomputable def fig4Solid (n nShots : ℕ) (first last : ℝ) : List (ℝ × ℝ × ℝ) :=
  (linspace first last 50).map fun l => (l, stdFRav nShots ((2 : ℝ) ^ n) l epsDefault, stdFXeb nShots ((2 : ℝ) ^ n) l)

end Paper

end Stoq
