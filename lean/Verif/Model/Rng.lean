import Mathlib.Data.Real.Basic
import Mathlib.Analysis.SpecialFunctions.Pow.Real
import Mathlib.Order.Interval.Set.Defs
import Verif.Model.Py

/-!
# Random numbers

All randomness is read from two infinite tapes: uniform reals in `[0,1)` and naturals (reduced modulo the
requested range).  A theorem for all tapes is a theorem for all random outcomes, hence for all seeds.
The combinators follow numpy's algorithms (`Generator`-independent behaviour: `choice` with `p` inverts the
cumulative distribution, `shuffle` is Fisher-Yates, `choice(replace=False)` is a prefix of a permutation).
-/

namespace Stoq

/-- The random source: two tapes and the positions reached on them. -/
structure Rng where
  unif : ℕ → Set.Ico (0 : ℝ) 1
  nat : ℕ → ℕ
  upos : ℕ
  npos : ℕ

namespace Rng

/-- `np.random.random_sample()` and `np.random.uniform()`: a real in `[0,1)`. -/
def randomSample : PyM Rng ℝ := fun r => (.ok (r.unif r.upos), { r with upos := r.upos + 1 })

/-- A uniform integer in `[0, n)` for `n > 0`. -/
def randBelow (n : ℕ) : PyM Rng ℕ := fun r => (.ok (r.nat r.npos % n), { r with npos := r.npos + 1 })

/-- `np.random.choice(a)` on a sequence of length `n`: the chosen index.  Empty `a` raises ValueError. -/
noncomputable def choice (n : ℕ) : PyM Rng ℕ := do
  PyM.lift (raiseUnless (n > 0) .valueError)
  randBelow n

/-- `np.cumsum`. -/
def cumsum (p : List ℝ) : List ℝ := (p.scanl (· + ·) 0).tail

/-- `cdf.searchsorted(u, side='right')` for a sorted `cdf`: the number of elements `≤ u`. -/
noncomputable def searchsortedRight (cdf : List ℝ) (u : ℝ) : ℕ :=
  (cdf.filter (fun x => open Classical in decide (x ≤ u))).length

/-- `np.random.choice(a, p=p)` on a sequence of length `n`: the chosen index.  numpy raises ValueError for
an empty `a`, a `p` of the wrong length, a negative probability, or probabilities not summing to 1 within
`sqrt(eps) = 2^-26`. -/
noncomputable def choiceP (n : ℕ) (p : List ℝ) : PyM Rng ℕ := do
  PyM.lift (raiseUnless (n > 0) .valueError)
  PyM.lift (raiseUnless (p.length = n) .valueError)
  PyM.lift (raiseUnless (∀ x ∈ p, 0 ≤ x) .valueError)
  PyM.lift (raiseUnless (|p.sum - 1| ≤ 1 / 2 ^ 26) .valueError)
  let cdf := (cumsum p).map (· / p.sum)
  let u ← randomSample
  return searchsortedRight cdf u

/-- `np.random.choice(a, p=probabilities)` where `probabilities` may be `None`. -/
noncomputable def choiceOpt (n : ℕ) : Option (List ℝ) → PyM Rng ℕ
  | none => choice n
  | some p => choiceP n p

/-- `x[i], x[j] = x[j], x[i]`. -/
def swapAt {α : Type _} (l : List α) (i j : ℕ) : List α :=
  match l[i]?, l[j]? with
  | some a, some b => (l.set i b).set j a
  | _, _ => l

/-- Fisher-Yates from index `i` downwards: `for i in reversed(range(1, i+1)): swap(x[i], x[randbelow(i+1)])`. -/
def shuffleFrom {α : Type _} : ℕ → List α → PyM Rng (List α)
  | 0, l => pure l
  | i + 1, l => do
    let j ← randBelow (i + 2)
    shuffleFrom i (swapAt l (i + 1) j)

/-- `np.random.shuffle(x)` / `random.shuffle(x)`. -/
def shuffle {α : Type _} (l : List α) : PyM Rng (List α) := shuffleFrom (l.length - 1) l

/-- `np.random.choice(list(range(n)), k, replace=False)`.  ValueError when `k > n`. -/
noncomputable def choiceNoReplace (n k : ℕ) : PyM Rng (List ℕ) := do
  PyM.lift (raiseUnless (k ≤ n) .valueError)
  let perm ← shuffle (List.range n)
  return perm.take k

end Rng

end Stoq
