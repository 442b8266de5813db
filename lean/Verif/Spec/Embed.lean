import Mathlib.Data.Complex.Basic
import Mathlib.LinearAlgebra.Matrix.Defs

/-!
# What it means for a gate to act on some of the qubits of a system

Basis states of `n` qubits are the numbers `0 .. 2^n - 1`; qubit 0 is the most significant bit.
-/

namespace Stoq

/-- Value (0 or 1) of qubit `q` in the basis state `c` of `n` qubits. -/
def qubit (n q c : ℕ) : ℕ := c / 2 ^ (n - 1 - q) % 2

/-- The qubits listed in `qs` (first one most significant), read as a number. -/
def gather (n : ℕ) (qs : List ℕ) (c : ℕ) : ℕ := qs.foldl (fun acc q => 2 * acc + qubit n q c) 0

theorem gather_foldl_lt (n : ℕ) (qs : List ℕ) (c acc N : ℕ) (h : acc < 2 ^ N) :
    qs.foldl (fun acc q => 2 * acc + qubit n q c) acc < 2 ^ (N + qs.length) := by
  induction qs generalizing acc N with
  | nil => simpa using h
  | cons q qs ih =>
    have hq : qubit n q c < 2 := Nat.mod_lt _ (by norm_num)
    have := ih (2 * acc + qubit n q c) (N + 1) (by rw [Nat.pow_succ]; omega)
    simpa [Nat.add_assoc, Nat.add_comm 1] using this

theorem gather_lt (n : ℕ) (qs : List ℕ) (c : ℕ) : gather n qs c < 2 ^ qs.length := by
  simpa [gather] using gather_foldl_lt n qs c 0 0 (by norm_num)

/-- Basis states that agree on all qubits not listed in `qs`. -/
def AgreeOff (n : ℕ) (qs : List ℕ) (r c : ℕ) : Prop := ∀ q < n, q ∉ qs → qubit n q r = qubit n q c

instance (n : ℕ) (qs : List ℕ) (r c : ℕ) : Decidable (AgreeOff n qs r c) :=
  inferInstanceAs (Decidable (∀ q < n, q ∉ qs → qubit n q r = qubit n q c))

/-- The operator on `n` qubits that acts as `M` on the qubits `qs` (in this order) and leaves all other
qubits alone. -/
def embed (n : ℕ) (qs : List ℕ) (M : Matrix (Fin (2 ^ qs.length)) (Fin (2 ^ qs.length)) ℂ) :
    Matrix (Fin (2 ^ n)) (Fin (2 ^ n)) ℂ := fun r c =>
  if AgreeOff n qs r c then M ⟨gather n qs r, gather_lt n qs r⟩ ⟨gather n qs c, gather_lt n qs c⟩ else 0

end Stoq
