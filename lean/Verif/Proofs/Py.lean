import Verif.Model.Py
import Mathlib.Tactic.Common

/-! Rewriting lemmas for the exception and state monads. -/

namespace Stoq

variable {α β σ : Type}

@[simp] theorem ok_bind (a : α) (f : α → Except PyErr β) : (Except.ok a >>= f) = f a := rfl
@[simp] theorem error_bind (e : PyErr) (f : α → Except PyErr β) :
    ((Except.error e : Except PyErr α) >>= f) = .error e := rfl
@[simp] theorem pure_except (a : α) : (pure a : Except PyErr α) = .ok a := rfl

theorem bind_eq_ok {x : Except PyErr α} {f : α → Except PyErr β} {b : β} :
    (x >>= f) = .ok b ↔ ∃ a, x = .ok a ∧ f a = .ok b := by
  cases x <;> simp

theorem assertE_of {p : Prop} (h : p) : assertE p = .ok () := by simp [assertE, h]
theorem assertE_of_not {p : Prop} (h : ¬ p) : assertE p = .error .assertion := by simp [assertE, h]
theorem raiseUnless_of {p : Prop} {e : PyErr} (h : p) : raiseUnless p e = .ok () := by simp [raiseUnless, h]
theorem raiseUnless_of_not {p : Prop} {e : PyErr} (h : ¬ p) : raiseUnless p e = .error e := by
  simp [raiseUnless, h]

@[simp] theorem assertE_eq_ok {p : Prop} {x : Unit} : assertE p = .ok x ↔ p := by
  unfold assertE; split <;> simp_all
@[simp] theorem raiseUnless_eq_ok {p : Prop} {e : PyErr} {x : Unit} : raiseUnless p e = .ok x ↔ p := by
  unfold raiseUnless; split <;> simp_all

theorem assertE_bind_eq_ok {p : Prop} {f : Unit → Except PyErr β} {b : β} :
    (assertE p >>= f) = .ok b ↔ p ∧ f () = .ok b := by
  by_cases h : p <;> simp [assertE_of, assertE_of_not, h]

theorem raiseUnless_bind_eq_ok {p : Prop} {e : PyErr} {f : Unit → Except PyErr β} {b : β} :
    (raiseUnless p e >>= f) = .ok b ↔ p ∧ f () = .ok b := by
  by_cases h : p <;> simp [raiseUnless_of, raiseUnless_of_not, h]

namespace PyM

theorem bind_apply (m : PyM σ α) (f : α → PyM σ β) (s : σ) :
    (m >>= f) s = match m s with
      | (.ok a, s') => f a s'
      | (.error e, s') => (.error e, s') := by
  rcases h : m s with ⟨_ | _, _⟩ <;> simp [bind, h]

@[simp] theorem pure_apply (a : α) (s : σ) : (pure a : PyM σ α) s = (.ok a, s) := rfl
@[simp] theorem raise_apply (e : PyErr) (s : σ) : (raise e : PyM σ α) s = (.error e, s) := rfl
@[simp] theorem lift_apply (x : Except PyErr α) (s : σ) : (lift x : PyM σ α) s = (x, s) := rfl
@[simp] theorem modify_apply (f : σ → σ) (s : σ) : modify f s = (.ok (), f s) := rfl

theorem bind_of_ok {m : PyM σ α} {f : α → PyM σ β} {s s' : σ} {a : α} (h : m s = (.ok a, s')) :
    (m >>= f) s = f a s' := by rw [bind_apply, h]

theorem bind_of_error {m : PyM σ α} {f : α → PyM σ β} {s s' : σ} {e : PyErr}
    (h : m s = (.error e, s')) : (m >>= f) s = (.error e, s') := by rw [bind_apply, h]

theorem bind_eq_ok_iff {m : PyM σ α} {f : α → PyM σ β} {s s'' : σ} {b : β} :
    (m >>= f) s = (.ok b, s'') ↔ ∃ a s', m s = (.ok a, s') ∧ f a s' = (.ok b, s'') := by
  rw [bind_apply]
  rcases h : m s with ⟨r, s'⟩
  cases r <;> simp

theorem assert_of {p : Prop} (h : p) (s : σ) : PyM.assert p s = (.ok (), s) := by
  simp [PyM.assert, assertE_of h]
theorem assert_of_not {p : Prop} (h : ¬ p) (s : σ) : PyM.assert p s = (.error .assertion, s) := by
  simp [PyM.assert, assertE_of_not h]

theorem assert_eq_ok_iff {p : Prop} {s s' : σ} {x : Unit} :
    PyM.assert p s = (.ok x, s') ↔ p ∧ s = s' := by
  by_cases h : p <;> simp [assert_of, assert_of_not, h]

theorem lift_eq_ok_iff {x : Except PyErr α} {s s' : σ} {a : α} :
    (lift x : PyM σ α) s = (.ok a, s') ↔ x = .ok a ∧ s = s' := by simp

theorem pure_eq_ok_iff {a b : α} {s s' : σ} :
    (pure a : PyM σ α) s = (.ok b, s') ↔ a = b ∧ s = s' := by simp

end PyM

end Stoq
