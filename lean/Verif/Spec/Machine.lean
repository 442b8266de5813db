import Verif.Spec.Accuracy
import Mathlib.Data.Int.Log

/-!
# Arithmetic with rounded operations

How the matrix operations of numpy are made of operations on real numbers, each of which is rounded.  Determinants,
their roots, the elementary functions in gate matrices and matrix exponentials are computed by libraries; they are
parameters with an error bound.
-/

namespace Stoq

open scoped Matrix.Norms.L2Operator

/-- A computer's arithmetic. -/
structure Machine where
  /-- The result of a real operation, given the exact result. -/
  round : ℝ → ℝ
  /-- `x * y` for complex numbers -/
  mul : ℂ → ℂ → ℂ
  /-- The entries of `a @ b` -/
  dot : Arr → Arr → ℕ → ℕ → ℂ
  /-- `np.trace(a)` -/
  trace : Arr → ℂ
  /-- `np.linalg.det(a)` -/
  det : Arr → ℂ
  /-- `(1 / x) ** (1 / d)` -/
  phase : ℕ → ℂ → ℂ
  /-- The entries of a gate matrix, given the function that makes it, its arguments and the exact matrix. -/
  entries : String → List ℝ → Arr → ℕ → ℕ → ℂ
  /-- The entries of `expm(1j * h * t)`, given `h`, `t` and the exact matrix. -/
  evolution : Arr → ℝ → Arr → ℕ → ℕ → ℂ

namespace Machine

variable (M : Machine)

/-- The number is a sum of the terms `g k` with `k` in the set, computed with rounded additions in some order and with
some brackets.  Each term is exact or rounded; adding an exact product is a fused multiply-add. -/
inductive Adds (g : ℕ → ℝ) : Finset ℕ → ℝ → Prop
  | exact (k : ℕ) : Adds g {k} (g k)
  | rounded (k : ℕ) : Adds g {k} (M.round (g k))
  | add {S T : Finset ℕ} {x y : ℝ} : Adds g S x → Adds g T y → Disjoint S T → Adds g (S ∪ T) (M.round (x + y))

/-- A computed sum of the first `n` terms. -/
def Sums (n : ℕ) (g : ℕ → ℝ) (x : ℝ) : Prop := if n = 0 then x = 0 else M.Adds g (Finset.range n) x

/-- The terms of the real part of the sum of all `x k * y k`. -/
def reTerms (x y : ℕ → ℂ) (k : ℕ) : ℝ :=
  if k % 2 = 0 then (x (k / 2)).re * (y (k / 2)).re else -((x (k / 2)).im * (y (k / 2)).im)

/-- The terms of the imaginary part of the sum of all `x k * y k`. -/
def imTerms (x y : ℕ → ℂ) (k : ℕ) : ℝ :=
  if k % 2 = 0 then (x (k / 2)).re * (y (k / 2)).im else (x (k / 2)).im * (y (k / 2)).re

/-- A computed sum of the first `n` products `x k * y k`: real and imaginary part are sums of real products. -/
def Dot (n : ℕ) (x y : ℕ → ℂ) (z : ℂ) : Prop := M.Sums (2 * n) (reTerms x y) z.re ∧ M.Sums (2 * n) (imTerms x y) z.im

/-- The matrix operations with clean-up threshold `t`. -/
noncomputable def arith (t : ℝ) : Arith where
  tau := t
  mul := M.dot
  kronecker a b i j := M.mul (a.val (i / b.rows) (j / b.cols)) (b.val (i % b.rows) (j % b.cols))
  balance d a i j := M.mul (M.phase d (M.det a)) (a.val i j)
  distance d a := M.round (1 - M.round (M.round ‖M.trace a‖ / d))
  entries := M.entries
  evolution := M.evolution

/-- Real operations have error `u`, relative for results above 1 and absolute for smaller ones; `0` and `1` are
represented exactly; sums and products are computed by such operations; and what the libraries compute for matrices of
dimension at most `D` has error at most `D * u`. -/
structure Ok (D : ℕ) (u : ℝ) : Prop where
  round : ∀ x : ℝ, |x| ≤ 4 * D → |M.round x - x| ≤ u * max 1 |x|
  zero : M.round 0 = 0
  one : M.round 1 = 1
  mul : ∀ x y, M.Dot 1 (fun _ => x) (fun _ => y) (M.mul x y)
  dot : ∀ a b i j, M.Dot a.cols (fun k => a.val i k) (fun k => b.val k j) (M.dot a b i j)
  trace : ∀ a, M.Sums a.rows (fun k => (a.val k k).re) (M.trace a).re ∧
    M.Sums a.rows (fun k => (a.val k k).im) (M.trace a).im
  det : ∀ d ≤ D, ∀ a : Arr, a.Small d → (∃ V ∈ Matrix.unitaryGroup (Fin d) ℂ, ‖a.toMatrix d - V‖ ≤ 1 / 100) →
    ‖M.det a - a.det‖ ≤ D * u * ‖a.det‖
  det_one : ∀ d ≤ D, M.det (Arr.identity d) = 1
  phase : ∀ d ≤ D, ∀ z : ℂ, (1 / 2) ^ d ≤ ‖z‖ → ‖z‖ ≤ 2 ^ d → ‖M.phase d z - (1 / z) ^ (1 / (d : ℂ))‖ ≤ D * u
  phase_one : ∀ d ≤ D, M.phase d 1 = 1
  entries : ∀ d ≤ D, ∀ (name : String) (args : List ℝ) (a : Arr), (∀ x ∈ args, |x| ≤ 100) → a.Small d →
    ∀ i < d, ∀ j < d, ‖M.entries name args a i j - a.val i j‖ ≤ D * u
  evolution : ∀ d ≤ D, ∀ (h a : Arr) (x : ℝ), |x| * ‖h.toMatrix d‖ ≤ 100 → a.Small d →
    ∀ i < d, ∀ j < d, ‖M.evolution h x a i j - a.val i j‖ ≤ D * u

end Machine

/-! ## IEEE 754 -/

/-- The finite numbers of double precision, without a bound on the exponent from above. -/
def IsDouble (x : ℝ) : Prop := ∃ n e : ℤ, |n| < 2 ^ 53 ∧ -1074 ≤ e ∧ x = n * 2 ^ e

/-- The exponent of the last digit of a number of double precision with the magnitude of `x`. -/
noncomputable def binary64Exp (x : ℝ) : ℤ := max (Int.log 2 |x| - 52) (-1074)

/-- Rounding to the nearest number of double precision, ties to the even one, when there is no overflow. -/
noncomputable def binary64 (x : ℝ) : ℝ :=
  let y := x / 2 ^ binary64Exp x
  let n := if Int.fract y < 1 / 2 ∨ (Int.fract y = 1 / 2 ∧ Even ⌊y⌋) then ⌊y⌋ else ⌊y⌋ + 1
  n * 2 ^ binary64Exp x

/-- `x * y` from rounded real operations. -/
def roundedMul (round : ℝ → ℝ) (x y : ℂ) : ℂ :=
  ⟨round (round (x.re * y.re) - round (x.im * y.im)), round (round (x.re * y.im) + round (x.im * y.re))⟩

/-- Summation from left to right. -/
def roundedSum (round : ℝ → ℝ) (l : List ℂ) : ℂ :=
  l.foldl (fun x y => ⟨round (x.re + y.re), round (x.im + y.im)⟩) 0

/-- Double precision with summation from left to right, and with library functions that round the real and imaginary
part of the exact results. -/
noncomputable def Machine.double : Machine where
  round := binary64
  mul := roundedMul binary64
  dot a b i j := roundedSum binary64 ((List.range a.cols).map fun k => roundedMul binary64 (a.val i k) (b.val k j))
  trace a := roundedSum binary64 ((List.range a.rows).map fun k => a.val k k)
  det a := ⟨binary64 a.det.re, binary64 a.det.im⟩
  phase d z := ⟨binary64 ((1 / z) ^ (1 / (d : ℂ))).re, binary64 ((1 / z) ^ (1 / (d : ℂ))).im⟩
  entries _ _ a i j := ⟨binary64 (a.val i j).re, binary64 (a.val i j).im⟩
  evolution _ _ a i j := ⟨binary64 (a.val i j).re, binary64 (a.val i j).im⟩

end Stoq
