import Verif.Spec.Session
import Verif.Spec.Hamiltonian

/-!
# The functions that return a sequence, as one kind of call

`Session` lists every such function separately.  Here they are the values of one type, so that a statement about the
sequences they return can be made once.
-/

namespace Stoq

/-- A call of a function that returns a sequence. -/
inductive Task
  | compile (C : Compiler) (target : Unitary) (threshold : Option ℝ) (m : ℤ)
  | compileLayered (C : Compiler) (target : Unitary) (counts : List (Primitive × ℤ)) (threshold : Option ℝ) (m : ℤ)
  | rav (dimension : ℕ) (primitives : List Primitive) (isArray : Bool) (sequenceLength : ℤ) (threshold : Option ℝ)
      (stoqAppendProbability : ℝ) (probabilities : Option (List ℝ)) (m : ℤ)
  | layeredRav (dimension : ℕ) (counts : List (Primitive × ℤ)) (layerCount : ℤ) (threshold : Option ℝ)
      (stoqAppendProbability : ℝ) (m : ℤ)
  | ideal (H : Hamiltonian) (time : ℝ) (numSteps : ℤ)
  | trotter (H : Hamiltonian) (time : ℝ) (numSteps : ℤ) (randomize : Bool)
  | qdrift (H : Hamiltonian) (time : ℝ) (numRepetitions : ℤ)
  | stoq (H : Hamiltonian) (time maxTStep : ℝ) (threshold : Option ℝ) (allowSimultaneousTerms : Bool)
  | hamiltonianRav (H : Hamiltonian) (time maxTStep : ℝ) (threshold : Option ℝ) (allowSimultaneousTerms : Bool)
      (fuel : ℕ)

/-- The call, giving the returned sequence (`result.compiled_sequence` for the functions that return a
`CompilerResult`). -/
noncomputable def Task.run (τ : Arith) : Task → PyM World SRef
  | .compile C target threshold m => do let R ← C.compile τ target threshold m; return R.sequence
  | .compileLayered C target counts threshold m => do
      let R ← C.compileLayered τ target counts threshold m; return R.sequence
  | .rav D prims arr L threshold p probs m => do
      let R ← Verification.generateRavSequence τ D prims arr L threshold p probs m; return R.sequence
  | .layeredRav D counts L threshold p m => do
      let R ← Verification.generateLayeredRavSequence τ D counts L threshold p m; return R.sequence
  | .ideal H t N => H.getIdealSequence τ t N
  | .trotter H t N randomize => H.getTrotterSequence τ t N randomize
  | .qdrift H t N => H.getQdriftSequence τ t N
  | .stoq H t m threshold b => do let R ← H.compileStoqSequence τ t m threshold b; return R.sequence
  | .hamiltonianRav H t m threshold b fuel => do
      let R ← H.compileRavSequence τ t m threshold b fuel; return R.sequence

/-- A client makes the call and keeps the returned sequence. -/
noncomputable def Client.task (τ : Arith) (c : Client) (T : Task) : Except PyErr Client.Obs × Client :=
  c.call (T.run τ) (fun _ _ => .handle) (fun _ => []) (fun s => [s])

/-- The call only uses compilers the client has. -/
def Task.Uses (Cs : List Compiler) : Task → Prop
  | .compile C _ _ _ => C ∈ Cs
  | .compileLayered C _ _ _ _ => C ∈ Cs
  | _ => True

/-- Systems of qubits, exactly unitary gates, Hermitian terms. -/
def Task.OnQubits : Task → Prop
  | .compile C target _ _ => ∃ n, C.dimension = 2 ^ n ∧ (∀ p ∈ C.primitives, p.Valid n) ∧ target.Exact (2 ^ n)
  | .compileLayered C target counts _ _ =>
      ∃ n, C.dimension = 2 ^ n ∧ (∀ pc ∈ counts, pc.1.Valid n) ∧ target.Exact (2 ^ n)
  | .rav D prims arr _ _ _ _ _ => ∃ n, D = 2 ^ n ∧ (∀ p ∈ prims, p.Valid n) ∧ prims ≠ [] ∧ arr = false
  | .layeredRav D counts _ _ _ _ => ∃ n, D = 2 ^ n ∧ ∀ pc ∈ counts, pc.1.Valid n
  | .ideal H _ _ => ∃ (n : ℕ) (Ms : List (Matrix (Fin (2 ^ n)) (Fin (2 ^ n)) ℂ)), 1 ≤ n ∧ H.Of Ms
  | .trotter H _ _ _ => ∃ (n : ℕ) (Ms : List (Matrix (Fin (2 ^ n)) (Fin (2 ^ n)) ℂ)), 1 ≤ n ∧ H.Of Ms
  | .qdrift H _ _ => ∃ (n : ℕ) (Ms : List (Matrix (Fin (2 ^ n)) (Fin (2 ^ n)) ℂ)), 1 ≤ n ∧ H.Of Ms
  | .stoq H _ m _ _ => 0 ≤ m ∧ ∃ (n : ℕ) (Ms : List (Matrix (Fin (2 ^ n)) (Fin (2 ^ n)) ℂ)), 1 ≤ n ∧ H.Of Ms
  | .hamiltonianRav H _ m _ _ _ =>
      0 ≤ m ∧ ∃ (n : ℕ) (Ms : List (Matrix (Fin (2 ^ n)) (Fin (2 ^ n)) ℂ)), 1 ≤ n ∧ H.Of Ms

/-- Programs that mix calls on sequences (specified by `Plain.step`, a machine whose sequences are lists of gates)
with calls that return sequences.  `p` is the state of the specification: a call that returns a sequence adds the
returned gates to it and changes nothing else, and a call that fails changes nothing.  Arithmetic is exact
(`τ = 0`). -/
inductive Mirror : Client → List Compiler → Plain → Prop
  | start (rng : Rng) : Mirror (Client.start rng) [] ⟨[], []⟩
  | op {c : Client} {Cs : List Compiler} {p : Plain} (o : Op) : Mirror c Cs p → o.OnQubits → o.NoSharedInverse c →
      Mirror (c.step 0 o).2 Cs (p.step o).2
  | newCompiler {c : Client} {Cs : List Compiler} {p : Plain} {C : Compiler} {w : World} (dimension : ℕ)
      (primitives : List Primitive) (isArray : Bool) (probabilities : Option (List ℝ))
      (appendProbability annealingRate : ℝ) : Mirror c Cs p →
      Compiler.new dimension primitives isArray probabilities appendProbability annealingRate c.world =
        (.ok C, w) →
      Mirror { c with world := w } (Cs ++ [C]) p
  | taskOk {c : Client} {Cs : List Compiler} {p : Plain} {s : SRef} {w : World} {v : SeqView} (T : Task) :
      Mirror c Cs p → T.Uses Cs → T.OnQubits → T.run 0 c.world = (.ok s, w) → w.view s = some v →
      Mirror (c.task 0 T).2 Cs { p with seqs := p.seqs ++ [v] }
  | taskFails {c : Client} {Cs : List Compiler} {p : Plain} {e : PyErr} {w : World} (T : Task) :
      Mirror c Cs p → T.Uses Cs → T.OnQubits → T.run 0 c.world = (.error e, w) →
      Mirror (c.task 0 T).2 Cs p

end Stoq
