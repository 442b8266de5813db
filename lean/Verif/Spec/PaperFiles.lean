import Mathlib.Data.List.Basic

/-!
# The circuits measured on ibmq_manila
-/

namespace Stoq

namespace Paper

/-- The numbers of the circuits in the order in which the data of `ibmq_manila` contain them: from 2 to 45 all, from 46 to 100
the even ones. -/
def measured : List ℕ := (List.range 44).map (· + 2) ++ (List.range 28).map (2 * · + 46)

/-- The name of the file of circuit `n`, in the directory `data/sequences/rav` or `data/sequences/xeb`. -/
def fileName (n : ℕ) : List Char := (toString n).toList ++ "_1.txt".toList

/-- The directory of the files; `kind` is `rav` or `xeb`. -/
def directory (kind : String) : List Char := "data/sequences/".toList ++ kind.toList

/-- The runs of ten that the figures of RAV use, by the number of shots. -/
def ravRuns (shots : ℕ) : List (Fin 10) :=
  if shots = 50 then [3, 4, 5, 6, 7, 8, 9] else if shots = 100 then [0, 1, 2, 3, 4, 5, 6]
  else if shots = 5000 then [0, 1, 2, 3, 4, 5, 6, 9] else [0, 1, 2, 3, 4, 5, 6, 7, 8, 9]

/-- The runs of ten that the figures of XEB use. -/
def xebRuns (shots : ℕ) : List (Fin 10) :=
  if shots = 500 then [0, 1, 2, 3, 4, 8, 9] else if shots = 1000 then [0, 1, 2, 3, 4, 5, 6, 7]
  else [0, 1, 2, 3, 4, 5, 6, 7, 8, 9]

end Paper

end Stoq
