import Mathlib.Data.List.Basic

/-!
# Python exceptions and mutable state

Exceptions are values (`PyErr`).  Code without side effects lives in `Except PyErr`.
Code that mutates objects lives in `PyM σ`: a function from a state to an outcome *and* a state, so
that mutations made before an exception is raised are still visible afterwards, as in Python.
-/

namespace Stoq

/-- The exception classes the modelled code can raise.  `nonFinite` is not a Python exception: it marks
the one place (`Unitary.__init__`, unitary.py:79) where numpy would silently produce NaN entries.
`dangling` and `outOfFuel` are model-internal and proved unreachable where it matters. -/
inductive PyErr where
  | assertion      -- AssertionError
  | typeError      -- TypeError
  | valueError     -- ValueError
  | indexError     -- IndexError
  | attributeError -- AttributeError
  | zeroDivision   -- ZeroDivisionError
  | nonFinite
  | dangling
  | outOfFuel
  deriving DecidableEq, Repr

/-- Python's `assert p` in side-effect free code. -/
noncomputable def assertE (p : Prop) : Except PyErr Unit :=
  open Classical in if p then .ok () else .error .assertion

/-- `raise err` unless `p`, used for exceptions raised inside library calls. -/
noncomputable def raiseUnless (p : Prop) (err : PyErr) : Except PyErr Unit :=
  open Classical in if p then .ok () else .error err

/-- Stateful Python code: state persists across exceptions. -/
def PyM (σ α : Type _) := σ → Except PyErr α × σ

namespace PyM

variable {σ τ α β : Type _}

instance : Monad (PyM σ) where
  pure a := fun s => (.ok a, s)
  bind m f := fun s =>
    match m s with
    | (.ok a, s') => f a s'
    | (.error e, s') => (.error e, s')

/-- `raise e` -/
def raise (e : PyErr) : PyM σ α := fun s => (.error e, s)

/-- Run side-effect free code inside stateful code. -/
def lift (x : Except PyErr α) : PyM σ α := fun s => (x, s)

/-- `assert p` in stateful code. -/
noncomputable def assert (p : Prop) : PyM σ Unit := lift (assertE p)

/-- Read the state. -/
def get : PyM σ σ := fun s => (.ok s, s)

/-- Replace the state. -/
def set (s' : σ) : PyM σ Unit := fun _ => (.ok (), s')

/-- Update the state. -/
def modify (f : σ → σ) : PyM σ Unit := fun s => (.ok (), f s)

/-- Run code on a component of the state. -/
def zoom (get : τ → σ) (put : τ → σ → τ) (m : PyM σ α) : PyM τ α := fun t =>
  ((m (get t)).1, put t (m (get t)).2)

end PyM

end Stoq
