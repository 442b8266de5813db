import Verif.Spec.Accuracy
import Verif.Spec.History
import Mathlib.Analysis.CStarAlgebra.Matrix

/-!
# Stored unitaries that are close to ideal ones

The constructor of `Unitary` sets small real and imaginary parts to zero and floating-point arithmetic rounds, so
stored matrices are only approximately unitary.  Closeness is measured in the operator norm, up to a global phase.
-/

namespace Stoq

open scoped Matrix.Norms.L2Operator

/-- `X` is within `ε` of a phase times `V`. -/
def CloseTo {d : ℕ} (X V : Matrix (Fin d) (Fin d) ℂ) (ε : ℝ) : Prop := ∃ c : ℂ, ‖c‖ = 1 ∧ ‖X - c • V‖ ≤ ε

/-- `X` is within `ε` of a phase times `V`, and so is the multiple of `X` of determinant one. -/
def NearMat {d : ℕ} (X V : Matrix (Fin d) (Fin d) ℂ) (ε : ℝ) : Prop :=
  CloseTo X V ε ∧ ∃ (r : ℂ) (X' : Matrix (Fin d) (Fin d) ℂ), X = r • X' ∧ ‖X'.det‖ = 1 ∧ CloseTo X' V ε

/-- `u` stores a matrix that is within `ε` of a phase times `V`, also when scaled to determinant one. -/
def Unitary.Near {d : ℕ} (u : Unitary) (V : Matrix (Fin d) (Fin d) ℂ) (ε : ℝ) : Prop :=
  u.matrix.rows = d ∧ u.matrix.cols = d ∧ NearMat (u.matrix.toMatrix d) V ε

/-- The error up to which the constructor's unitarity test is certain to succeed. -/
noncomputable def driftLimit : ℝ := 4.9e-9

/-- An ideal gate: a matrix on the listed qubits. -/
structure Gate where
  qubits : List ℕ
  matrix : Matrix (Fin (2 ^ qubits.length)) (Fin (2 ^ qubits.length)) ℂ

/-- The operator of an ideal gate on `n` qubits. -/
def Gate.op (g : Gate) (n : ℕ) : Matrix (Fin (2 ^ n)) (Fin (2 ^ n)) ℂ := embed n g.qubits g.matrix

/-- The operator of a list of ideal gates, the first gate acting first. -/
def gateProduct (n : ℕ) : List Gate → Matrix (Fin (2 ^ n)) (Fin (2 ^ n)) ℂ
  | [] => 1
  | g :: gs => gateProduct n gs * g.op n

/-- The gate is unitary on distinct qubits of the system. -/
structure Gate.Ok (n : ℕ) (g : Gate) : Prop where
  nodup : g.qubits.Nodup
  nonempty : g.qubits ≠ []
  fits : ∀ q ∈ g.qubits, q < n
  unitary : g.matrix ∈ Matrix.unitaryGroup _ ℂ

/-- The entry realises the ideal gate with error at most `ε`. -/
def EntryVal.Realises (e : EntryVal) (g : Gate) (ε : ℝ) : Prop :=
  e.applyTo = g.qubits ∧ e.unitary.Near g.matrix ε

/-- The ideal gate given by an entry. -/
def EntryVal.gate (e : EntryVal) : Gate := ⟨e.applyTo, e.unitary.matrix.toMatrix _⟩

/-! ## Error after a number of operations -/

/-- Error added by one operation on a sequence of `n` qubits whose gates have error `ε`. -/
noncomputable def stepErr (n : ℕ) (t ε : ℝ) : ℝ := ε + 12 * 2 ^ n * t

/-- Error after `k` operations. -/
noncomputable def driftErr (n : ℕ) (t ε : ℝ) (k : ℕ) : ℝ := (1 + stepErr n t ε) ^ k - 1

/-- Accuracy and gate error for which `k` operations stay below the limit. -/
structure Budget (n : ℕ) (τ : Arith) (t ε : ℝ) (k : ℕ) : Prop where
  tau : τ.Accurate (2 ^ n) t
  tau1 : t ≤ 1
  eps : 0 ≤ ε
  lim : driftErr n t ε k ≤ driftLimit

/-! ## Programs that edit sequences -/

/-- If before the call every product is the result of at most `k` multiplications, then so it is afterwards with this
number. -/
def Op.count : Op → ℕ → ℕ
  | .newSeq _ _ es, k => k + es.length
  | .appendFirst _ _ _, k => k + 1
  | .appendLast _ _ _, k => k + 1
  | .removeFirst _ _, k => k + 1
  | .removeLast _ _, k => k + 1
  | .inverse _, k => k + 1
  | .combine ss, k => k + ss.length * (k + 1)
  | .fullUnitary _ _, k => k + 1
  | .text _ _ _, k => k + 1
  | _, k => k

/-- The number of multiplications after all calls. -/
def Op.total (ops : List Op) (k : ℕ) : ℕ := ops.foldl (fun k op => op.count k) k

/-- The call inverts the gates of a sequence once more. -/
def Op.inversions : Op → ℕ
  | .inverse _ => 1
  | _ => 0

/-- Error of the gates of `n` qubits that were stored with error `ε` and inverted `j` times. -/
noncomputable def gateErr (n : ℕ) (t ε : ℝ) (j : ℕ) : ℝ := ε + j * (3 * 2 ^ n * t)

/-- The call `op` of the program is the call `op'` of the ideal program, with gates stored up to an error `ε` and
at most `n` qubits. -/
def Op.Approximates (n : ℕ) (ε : ℝ) : Op → Op → Prop
  | .newEntry u qs, .newEntry v qs' => qs = qs' ∧ ∃ d, v.Exact d ∧ u.Near (v.matrix.toMatrix d) ε
  | .newSeq D arr es, .newSeq D' arr' es' => D = D' ∧ arr = arr' ∧ es = es' ∧ ∃ m ≤ n, D = 2 ^ m
  | .appendFirst s e b, op' => op' = .appendFirst s e b
  | .appendLast s e b, op' => op' = .appendLast s e b
  | .removeFirst s b, op' => op' = .removeFirst s b
  | .removeLast s b, op' => op' = .removeLast s b
  | .undo s, op' => op' = .undo s
  | .product s, op' => op' = .product s
  | .getEntries s, op' => op' = .getEntries s
  | .getLength s, op' => op' = .getLength s
  | .inverse s, op' => op' = .inverse s
  | .combine ss, op' => op' = .combine ss
  | .fullUnitary e D, op' => op' = .fullUnitary e D ∧ ∃ m ≤ n, D = 2 ^ m
  | .text k fmt s, op' => op' = .text k fmt s
  | _, _ => False

/-- What the client sees agrees with the ideal result: lengths exactly, entries up to `ε`, products up to `E`; a text
must be returned (C23 says which). -/
def NearObs (ε E : ℝ) : Client.Obs → Plain.Obs → Prop
  | .unit, .unit => True
  | .handle, .handle => True
  | .length n, .length m => n = m
  | .unitary u, .op _ M => u.Near M E
  | .entries l, .entries l' => List.Forall₂ (fun e e' => e.Realises e'.gate ε) l l'
  | .text _, .text _ => True
  | _, _ => False

/-- The client's result agrees with the ideal one, including the exception raised. -/
def NearResult (ε E : ℝ) : Except PyErr Client.Obs → Except PyErr Plain.Obs → Prop
  | .ok a, .ok b => NearObs ε E a b
  | .error e, .error e' => e = e'
  | _, _ => False

end Stoq
