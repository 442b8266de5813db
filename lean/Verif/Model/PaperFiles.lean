import Verif.Model.PaperBins
import Verif.Model.PaperCount

/-!
# Which measured data goes with which circuit file   (paper/fig8, paper/fig9, notebooks)
-/

namespace Stoq

namespace Paper

/-- `l[0:stop:step]` for `0 < step`. -/
def sliceStep {α : Type} (l : List α) (stop step : ℕ) : List α := (rangeStep (min stop l.length) step).filterMap (l[·]?)

/-- `discard_odd` (fig9a.ipynb, fig9b.ipynb, cell 2, fig9cd.ipynb, cells 2 and 3) along the axis of the circuits, and the same
slices of `simulated_results_rav` (fig9a.ipynb, cell 4, fig9cd.ipynb, cell 6) and `simulated_results_xeb` (fig9b.ipynb, cell 4,
fig9cd.ipynb, cell 7). -/
def discardOdd {α : Type} (full : List α) : List α := sliceStep full 44 2 ++ full.drop 44

/-- What stops `files_to_list`: `re.search` returns `None`, `int` refuses its argument, the assertion fails or an array has no
such index. -/
inductive FileError
  | noMatch
  | notNumber
  | assertion
  | noIndex
deriving DecidableEq, Repr

/-- Whether the text starts as `_1.txt` in the pattern requires; `.` is every character but `\n`. -/
def endsHere : List Char → Bool
  | '_' :: '1' :: c :: 't' :: 'x' :: 't' :: _ => c != '\n'
  | _ => false

/-- What `(.*)` captures when `(.*)_1.txt` is matched at the start of the text: as much as possible. -/
def greedy : List Char → Option (List Char)
  | [] => none
  | c :: cs =>
    match if c = '\n' then none else greedy cs with
    | some g => some (c :: g)
    | none => if endsHere (c :: cs) then some [] else none

/-- `re.search('rav\/(.*)_1.txt', path).group(1)`, or with `xeb\/`: the first place where the pattern matches. -/
def searchGroup (marker : List Char) : List Char → Option (List Char)
  | [] => none
  | c :: cs =>
    match if marker.isPrefixOf (c :: cs) then greedy ((c :: cs).drop marker.length) else none with
    | some g => some g
    | none => searchGroup marker cs

/-- `int(s)` for decimal digits; signs, spaces, underscores and digits of other scripts, which Python also accepts, are refused
here. -/
def parseInt (s : List Char) : Except FileError ℤ :=
  if s ≠ [] ∧ s.all Char.isDigit then .ok (Nat.ofDigitChars 10 s 0 : ℕ) else .error .notNumber

/-- `circuit_i` in `files_to_list` (fig8a.ipynb, fig8b.ipynb, cell 8, fig9a.ipynb, fig9b.ipynb, cell 6, fig8cd.ipynb and
fig9cd.ipynb): `//` rounds down. -/
def circuitIndex (marker path : List Char) : Except FileError ℕ := do
  let some g := searchGroup marker path | .error .noMatch
  let k ← parseInt g
  let i := k.fdiv 2 - 1
  if 0 ≤ i ∧ i ≤ 49 then .ok i.toNat else .error .assertion

/-- An entry of `records`; the text is left out.  `sampledProbs` has a row for each run. -/
structure Record (P : Type) (R D : ℕ) where
  circuitI : ℕ
  cycleDepth : ℕ
  pureProbs : P
  sampledProbs : Fin R → Fin D → ℝ

/-- `a[i]` for `0 ≤ i`. -/
def index {α : Type} (l : List α) (i : ℕ) : Except FileError α :=
  match l[i]? with
  | some a => .ok a
  | none => .error .noIndex

/-- `files_to_list`: `files` are the names that `os.listdir` returns, in any order, with what the files contain.  `pureOf` is
`simulated_results[circuit_i]` in the notebooks of fig9 and a simulation of the circuit in those of fig8.  `rows` is
`rav_results[shots_per_run]` or `rav_run_probs` with the circuits as the first axis.  Numbers of shots are `shots` in fig9 and 1 in
fig8, where the data are already probabilities. -/
noncomputable def filesToList {P : Type} {R D : ℕ} (marker directory : List Char) (files : List (List Char × List Char))
    (pureOf : ℕ → List Char → Except FileError P) (shots : ℕ) (rows : List (Fin R → Fin D → ℝ)) :
    Except FileError (List (Record P R D)) :=
  files.mapM fun (f, contents) => do
    let jaqal := readText contents
    let circuitI ← circuitIndex marker (directory ++ '/' :: f)
    let pureProbs ← pureOf circuitI jaqal
    let row ← index rows circuitI
    return {
      circuitI := circuitI
      cycleDepth := get2QGateCount jaqal
      pureProbs := pureProbs
      sampledProbs := fun r k => row r k / shots }

/-- The runs that fig9a.ipynb (cell 7) and fig9cd.ipynb (cell 10) ignore. -/
def ravIgnored (shots : ℕ) : List ℕ :=
  if shots = 50 then [0, 1, 2] else if shots = 100 then [7, 8, 9] else if shots = 5000 then [7, 8] else []

/-- The runs that fig9b.ipynb (cell 7) and fig9cd.ipynb (cell 12) ignore. -/
def xebIgnored (shots : ℕ) : List ℕ :=
  if shots = 500 then [5, 6, 7] else if shots = 1000 then [8, 9] else []

/-- `all_success_rates` (same cells): a list for each run that is not ignored, with a rate for each record. -/
noncomputable def allSuccessRates {P : Type} {R D : ℕ} (ignored : List ℕ) (rate : P → (Fin D → ℝ) → ℝ)
    (records : List (Record P R D)) : List (List ℝ) :=
  ((List.finRange R).filter fun r : Fin R => decide (r.val ∉ ignored)).map fun r : Fin R =>
    records.map fun record => rate record.pureProbs (record.sampledProbs r)

/-- The rate of fig9a.ipynb: `pure_probs` has one entry, the probability of the first state. -/
noncomputable def ravRate (pure : ℝ) (sampled : Fin 4 → ℝ) : ℝ := successRate 4 (sampled 0) pure

/-- The rate of fig9b.ipynb. -/
noncomputable def xebRate (pure : Fin 4 → ℝ) (sampled : Fin 4 → ℝ) : ℝ := xebFidelity pure sampled

end Paper

end Stoq
