import Verif.Spec.History
import Verif.Spec.Compile
import Verif.Model.Verification
import Verif.Model.Hamiltonian

/-!
# Sessions: arbitrary interleavings of calls on sequences and on compilers
-/

namespace Stoq

/-- States a client can reach, and the compilers it has made: it starts with nothing, performs any calls on
sequences, makes compilers and compiles with them, generates verification sequences, and makes sequences from
Hamiltonians (some of these make further compilers that it does not see).  Calls may fail.  `τ` is the matrix arithmetic. -/
inductive Session (τ : Arith) : Client → List Compiler → Prop
  | start (rng : Rng) : Session τ (Client.start rng) []
  | op {c : Client} {Cs : List Compiler} (o : Op) : Session τ c Cs → Session τ (c.step τ o).2 Cs
  | newCompiler {c : Client} {Cs : List Compiler} {C : Compiler} {w : World} (dimension : ℕ)
      (primitives : List Primitive) (isArray : Bool) (probabilities : Option (List ℝ))
      (appendProbability annealingRate : ℝ) : Session τ c Cs →
      Compiler.new dimension primitives isArray probabilities appendProbability annealingRate c.world =
        (.ok C, w) →
      Session τ { c with world := w } (Cs ++ [C])
  | compile {c : Client} {Cs : List Compiler} {C : Compiler} (target : Unitary) (threshold : Option ℝ) (m : ℤ) :
      Session τ c Cs → C ∈ Cs →
      Session τ (c.call (C.compile τ target threshold m) (fun _ _ => .handle) (fun _ => [])
        (fun R => [R.sequence])).2 Cs
  | compileLayered {c : Client} {Cs : List Compiler} {C : Compiler} (target : Unitary)
      (counts : List (Primitive × ℤ)) (threshold : Option ℝ) (m : ℤ) :
      Session τ c Cs → C ∈ Cs →
      Session τ (c.call (C.compileLayered τ target counts threshold m) (fun _ _ => .handle) (fun _ => [])
        (fun R => [R.sequence])).2 Cs
  | rav {c : Client} {Cs : List Compiler} (dimension : ℕ) (primitives : List Primitive) (isArray : Bool)
      (sequenceLength : ℤ) (threshold : Option ℝ) (stoqAppendProbability : ℝ) (probabilities : Option (List ℝ))
      (m : ℤ) : Session τ c Cs →
      Session τ (c.call (Verification.generateRavSequence τ dimension primitives isArray sequenceLength threshold
        stoqAppendProbability probabilities m) (fun _ _ => .handle) (fun _ => []) (fun R => [R.sequence])).2 Cs
  | layeredRav {c : Client} {Cs : List Compiler} (dimension : ℕ) (counts : List (Primitive × ℤ)) (layerCount : ℤ)
      (threshold : Option ℝ) (stoqAppendProbability : ℝ) (m : ℤ) : Session τ c Cs →
      Session τ (c.call (Verification.generateLayeredRavSequence τ dimension counts layerCount threshold
        stoqAppendProbability m) (fun _ _ => .handle) (fun _ => []) (fun R => [R.sequence])).2 Cs
  | ideal {c : Client} {Cs : List Compiler} (H : Hamiltonian) (time : ℝ) (numSteps : ℤ) : Session τ c Cs →
      Session τ (c.call (H.getIdealSequence τ time numSteps) (fun _ _ => .handle) (fun _ => []) (fun s => [s])).2 Cs
  | trotter {c : Client} {Cs : List Compiler} (H : Hamiltonian) (time : ℝ) (numSteps : ℤ) (randomize : Bool) :
      Session τ c Cs →
      Session τ (c.call (H.getTrotterSequence τ time numSteps randomize) (fun _ _ => .handle) (fun _ => [])
        (fun s => [s])).2 Cs
  | qdrift {c : Client} {Cs : List Compiler} (H : Hamiltonian) (time : ℝ) (numRepetitions : ℤ) : Session τ c Cs →
      Session τ (c.call (H.getQdriftSequence τ time numRepetitions) (fun _ _ => .handle) (fun _ => [])
        (fun s => [s])).2 Cs
  | stoq {c : Client} {Cs : List Compiler} (H : Hamiltonian) (time maxTStep : ℝ) (threshold : Option ℝ)
      (allowSimultaneousTerms : Bool) : Session τ c Cs →
      Session τ (c.call (H.compileStoqSequence τ time maxTStep threshold allowSimultaneousTerms)
        (fun _ _ => .handle) (fun _ => []) (fun R => [R.sequence])).2 Cs
  | hamiltonianRav {c : Client} {Cs : List Compiler} (H : Hamiltonian) (time maxTStep : ℝ) (threshold : Option ℝ)
      (allowSimultaneousTerms : Bool) (fuel : ℕ) : Session τ c Cs →
      Session τ (c.call (H.compileRavSequence τ time maxTStep threshold allowSimultaneousTerms fuel)
        (fun _ _ => .handle) (fun _ => []) (fun R => [R.sequence])).2 Cs

end Stoq
