import Mathlib.Data.List.Basic

/-!
# How the paper's notebooks count the layers of a circuit file
-/

namespace Stoq

namespace Paper

/-- `s.split(sep)` of Python for a separator of one character. -/
def split (sep : Char) : List Char → List (List Char)
  | [] => [[]]
  | c :: cs =>
    if c = sep then [] :: split sep cs
    else match split sep cs with
      | [] => [[c]]
      | l :: ls => (c :: l) :: ls

/-- What is read from a file opened with `mode='r'`: every `\r\n` and every other `\r` is read as `\n`. -/
def readText : List Char → List Char
  | [] => []
  | '\r' :: '\n' :: cs => '\n' :: readText cs
  | '\r' :: cs => '\n' :: readText cs
  | c :: cs => c :: readText cs

/-- `get_2Q_gate_count` (cell 8 of paper/fig8/fig8a.ipynb, and in the other notebooks of figures 8 and 9), for the text
`''.join(f.readlines())` of a file. -/
def get2QGateCount (jaqal : List Char) : ℕ :=
  let codeArray := ((split '\n' jaqal).drop 5).dropLast
  (codeArray.filter fun rotation => "MS".toList.isPrefixOf ((split ' ' rotation).headD [])).length

/-- `get_layer_count` (cell 1 of paper/fig5/fig5.ipynb), for the text read; a line contains
its `\n`, which makes no difference. -/
def getLayerCount (text : List Char) : ℕ :=
  ((split '\n' text).filter fun line => "MS".toList.isPrefixOf line).length

end Paper

end Stoq
