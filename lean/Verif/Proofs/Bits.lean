import Mathlib.Algebra.BigOperators.Group.Finset.Basic
import Mathlib.Algebra.BigOperators.Fin
import Mathlib.Algebra.Order.BigOperators.Group.Finset
import Mathlib.Tactic.Ring
import Mathlib.Tactic.LinearCombination
import Verif.Spec.Embed

/-! Big-endian binary expansions. -/

namespace Stoq

open Finset

/-- The number with bits `b 0, …, b (n-1)`, most significant first. -/
def num : ℕ → (ℕ → ℕ) → ℕ
  | 0, _ => 0
  | n + 1, b => 2 * num n b + b n

theorem num_congr {n : ℕ} {b b' : ℕ → ℕ} (h : ∀ p < n, b p = b' p) : num n b = num n b' := by
  induction n with
  | zero => rfl
  | succ n ih => simp only [num]; rw [ih fun p hp => h p (by omega), h n (by omega)]

theorem num_lt {n : ℕ} {b : ℕ → ℕ} (h : ∀ p < n, b p < 2) : num n b < 2 ^ n := by
  induction n with
  | zero => simp [num]
  | succ n ih =>
    have := ih fun p hp => h p (by omega)
    have := h n (by omega)
    simp only [num, pow_succ]; omega

theorem num_add (m k : ℕ) (b : ℕ → ℕ) : num (m + k) b = 2 ^ k * num m b + num k fun j => b (m + j) := by
  induction k with
  | zero => simp [num]
  | succ k ih =>
    rw [← Nat.add_assoc]; simp only [num]; rw [ih, pow_succ]; ring

theorem qubit_lt (n q c : ℕ) : qubit n q c < 2 := Nat.mod_lt _ (by norm_num)

theorem num_div {m n : ℕ} (hmn : m ≤ n) {b : ℕ → ℕ} (h : ∀ p < n, b p < 2) :
    num n b / 2 ^ (n - m) = num m b := by
  obtain ⟨k, rfl⟩ := Nat.exists_eq_add_of_le hmn
  rw [num_add, Nat.add_sub_cancel_left, Nat.mul_add_div (Nat.two_pow_pos k), Nat.div_eq_of_lt, Nat.add_zero]
  exact num_lt fun p hp => h _ (by omega)

theorem num_mod {m n : ℕ} (hmn : m ≤ n) {b : ℕ → ℕ} (h : ∀ p < n, b p < 2) :
    num n b % 2 ^ (n - m) = num (n - m) fun j => b (m + j) := by
  obtain ⟨k, rfl⟩ := Nat.exists_eq_add_of_le hmn
  rw [num_add, Nat.add_sub_cancel_left, Nat.mul_add_mod, Nat.mod_eq_of_lt]
  exact num_lt fun p hp => h _ (by omega)

theorem num_inj {n : ℕ} {b b' : ℕ → ℕ} (h : ∀ p < n, b p < 2) (h' : ∀ p < n, b' p < 2) :
    num n b = num n b' ↔ ∀ p < n, b p = b' p := by
  refine ⟨fun e => ?_, num_congr⟩
  induction n with
  | zero => intro p hp; omega
  | succ n ih =>
    simp only [num] at e
    have h1 := h n (by omega)
    have h2 := h' n (by omega)
    have := ih (fun p hp => h p (by omega)) (fun p hp => h' p (by omega)) (by omega)
    intro p hp
    rcases Nat.lt_succ_iff_lt_or_eq.mp hp with hp | rfl
    · exact this p hp
    · omega

theorem num_qubit {n c : ℕ} (hc : c < 2 ^ n) : num n (fun q => qubit n q c) = c := by
  induction n generalizing c with
  | zero => simp [num] at *; omega
  | succ n ih =>
    simp only [num]
    have : ∀ q < n, qubit (n + 1) q c = qubit n q (c / 2) := by
      intro q hq
      simp only [qubit]
      rw [Nat.div_div_eq_div_mul]
      congr 2
      rw [← pow_succ']; congr 1; omega
    rw [num_congr this, ih (by rw [pow_succ] at hc; omega)]
    simp [qubit]; omega

theorem qubit_num {n q : ℕ} (hq : q < n) {b : ℕ → ℕ} (h : ∀ p < n, b p < 2) :
    qubit n q (num n b) = b q := by
  have := (num_inj (fun p _ => qubit_lt n p (num n b)) h).mp (num_qubit (num_lt h))
  exact this q hq

theorem qubit_ext {n r c : ℕ} (hr : r < 2 ^ n) (hc : c < 2 ^ n)
    (h : ∀ q < n, qubit n q r = qubit n q c) : r = c := by
  rw [← num_qubit hr, ← num_qubit hc]; exact num_congr h

/-- `gather` reads the listed qubits. -/
theorem gather_eq_num (n : ℕ) (qs : List ℕ) (c : ℕ) :
    gather n qs c = num qs.length fun k => qubit n (qs.getD k 0) c := by
  unfold gather
  induction qs using List.reverseRecOn with
  | nil => rfl
  | append_singleton qs q ih =>
    rw [List.foldl_append, ih, List.length_append, List.length_singleton]
    simp only [num, List.foldl_cons, List.foldl_nil]
    congr 2
    · exact num_congr fun p hp => by simp [List.getElem?_append, hp]
    · simp

theorem gather_eq_iff {n : ℕ} {qs : List ℕ} {r c : ℕ} :
    gather n qs r = gather n qs c ↔ ∀ q ∈ qs, qubit n q r = qubit n q c := by
  rw [gather_eq_num, gather_eq_num, num_inj (fun _ _ => qubit_lt ..) (fun _ _ => qubit_lt ..)]
  constructor
  · intro h q hq
    obtain ⟨k, hk, rfl⟩ := List.mem_iff_getElem.mp hq
    have := h k hk
    simpa [hk] using this
  · intro h k hk
    refine h _ ?_
    simp [hk]

end Stoq
