import Mathlib.LinearAlgebra.Matrix.NonsingularInverse
import Mathlib.Analysis.SpecialFunctions.Pow.Complex
import Verif.Model.Py

/-!
# numpy arrays

A two-dimensional `np.ndarray` of complex numbers, with the exact operations on it, and what a computer does instead.
`val i j` is only meaningful for `i < rows` and `j < cols`.
-/

namespace Stoq

open scoped BigOperators

/-- `np.ndarray` with two axes. -/
structure Arr where
  rows : ℕ
  cols : ℕ
  val : ℕ → ℕ → ℂ

namespace Arr

/-- The array as a Mathlib `n × n` matrix. -/
def toMatrix (a : Arr) (n : ℕ) : Matrix (Fin n) (Fin n) ℂ := fun i j => a.val i j

/-- `np.array([[..], ..])` from literal rows. -/
def ofRows (rows : List (List ℂ)) : Arr where
  rows := rows.length
  cols := (rows.headD []).length
  val := fun i j => (rows.getD i []).getD j 0

/-- `np.identity(n)`. -/
def identity (n : ℕ) : Arr := ⟨n, n, fun i j => if i = j then 1 else 0⟩

/-- `a @ b` (shapes are checked by the callers). -/
def matmul (a b : Arr) : Arr :=
  ⟨a.rows, b.cols, fun i j => ∑ k ∈ Finset.range a.cols, a.val i k * b.val k j⟩

/-- `a.T.conj()`. -/
def ct (a : Arr) : Arr := ⟨a.cols, a.rows, fun i j => (starRingEnd ℂ) (a.val j i)⟩

/-- `a.T`. -/
def transpose (a : Arr) : Arr := ⟨a.cols, a.rows, fun i j => a.val j i⟩

/-- `c * a`. -/
def smul (c : ℂ) (a : Arr) : Arr := ⟨a.rows, a.cols, fun i j => c * a.val i j⟩

/-- `a + b`. -/
def add (a b : Arr) : Arr := ⟨a.rows, a.cols, fun i j => a.val i j + b.val i j⟩

/-- `np.kron(a, b)`. -/
def kron (a b : Arr) : Arr :=
  ⟨a.rows * b.rows, a.cols * b.cols,
   fun i j => a.val (i / b.rows) (j / b.cols) * b.val (i % b.rows) (j % b.cols)⟩

/-- `np.linalg.det(a)` for square `a`. -/
noncomputable def det (a : Arr) : ℂ := (a.toMatrix a.rows).det

/-- `np.trace(a)` for square `a`. -/
noncomputable def trace (a : Arr) : ℂ := ∑ i ∈ Finset.range a.rows, a.val i i

/-- One real component of the clean-up in `Unitary.__init__` (unitary.py:70-71):
values of absolute value below `t` become 0.  The code uses `t = 1e-12`. -/
noncomputable def cleanR (t : ℝ) (x : ℝ) : ℝ := if |x| < t then 0 else x

/-- `matrix.real[np.abs(matrix.real) < 1e-12] = 0` and the same for `.imag` (unitary.py:70-71). -/
noncomputable def clean (t : ℝ) (a : Arr) : Arr :=
  ⟨a.rows, a.cols, fun i j => ⟨cleanR t (a.val i j).re, cleanR t (a.val i j).im⟩⟩

end Arr

/-- The clean-up threshold in the code (unitary.py:70-71). -/
noncomputable def codeTau : ℝ := 1e-12

/-- Matrix arithmetic as a computer carries it out: the clean-up threshold of the code and the entries numpy
computes for each kind of matrix operation.  Nothing is assumed about the results here, so what is proved for every
`Arith` holds whatever the rounding errors are; `Arith.Accurate` (`Verif.Spec.Accuracy`) bounds them. -/
structure Arith where
  /-- The threshold of the clean-up in `Unitary.__init__` (unitary.py:70-71). -/
  tau : ℝ
  /-- The entries of `a @ b`. -/
  mul : Arr → Arr → ℕ → ℕ → ℂ
  /-- The entries of `np.kron(a, b)`. -/
  kronecker : Arr → Arr → ℕ → ℕ → ℂ
  /-- The entries of `(1 / np.linalg.det(a)) ** (1 / d) * a`. -/
  balance : ℕ → Arr → ℕ → ℕ → ℂ
  /-- The number `1 - np.abs(np.trace(a)) / d`. -/
  distance : ℕ → Arr → ℝ
  /-- The entries of a gate matrix, given the function that makes it, its arguments and the exact matrix. -/
  entries : String → List ℝ → Arr → ℕ → ℕ → ℂ
  /-- The entries of `scipy.linalg.expm(1j * h * t)`, given `h`, `t` and the exact matrix. -/
  evolution : Arr → ℝ → Arr → ℕ → ℕ → ℂ

namespace Arith

variable (τ : Arith)

/-- `a @ b` as computed. -/
def matmul (a b : Arr) : Arr := ⟨a.rows, b.cols, τ.mul a b⟩

/-- `np.kron(a, b)` as computed. -/
def kron (a b : Arr) : Arr := ⟨a.rows * b.rows, a.cols * b.cols, τ.kronecker a b⟩

/-- The matrix with balanced global phase (unitary.py:79-80) as computed. -/
def balanced (d : ℕ) (a : Arr) : Arr := ⟨a.rows, a.cols, τ.balance d a⟩

/-- A gate matrix as computed. -/
def gate (name : String) (args : List ℝ) (a : Arr) : Arr := ⟨a.rows, a.cols, τ.entries name args a⟩

/-- A matrix exponential as computed. -/
def evolved (h : Arr) (t : ℝ) (a : Arr) : Arr := ⟨a.rows, a.cols, τ.evolution h t a⟩

/-- Exact arithmetic with clean-up threshold `t`. -/
noncomputable def exact (t : ℝ) : Arith where
  tau := t
  mul a b := (a.matmul b).val
  kronecker a b := (a.kron b).val
  balance d a := (a.smul ((1 / a.det) ^ (1 / (d : ℂ)))).val
  distance d a := 1 - ‖a.trace‖ / d
  entries _ _ a := a.val
  evolution _ _ a := a.val

/-- Exact arithmetic without clean-up. -/
noncomputable instance : Zero Arith := ⟨exact 0⟩

end Arith

/-- `np.isclose(a, b)` with numpy's default `rtol=1e-05`, `atol=1e-08`. -/
def isclose (a b : ℂ) : Prop := ‖a - b‖ ≤ 1e-8 + 1e-5 * ‖b‖

/-- `np.allclose(a, b)` for arrays of equal shape. -/
def allclose (a b : Arr) : Prop := ∀ i < a.rows, ∀ j < a.cols, isclose (a.val i j) (b.val i j)

/-- `int(np.log2(n))` for `n ≥ 1`. -/
def intLog2 (n : ℕ) : ℕ := Nat.log 2 n

/-- `np.max(l)` for a non-empty list of naturals. -/
def listMax (l : List ℕ) : ℕ := l.foldr max 0

end Stoq
