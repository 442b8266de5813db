import Verif.Spec.Sequence
import Verif.Model.Compiler
import Mathlib.Analysis.SpecialFunctions.Exp

/-!
# Compilation by random walk, on plain lists of gates

The textbook simulated-annealing (Metropolis) algorithm: no heap, no undo, no stored product.  The product of a
candidate is computed from its list of gates every time it is needed.
-/

namespace Stoq

namespace Metropolis

/-- Distance of a list of gates from the target `T` on `n` qubits. -/
noncomputable def cost (n : ℕ) (T : Matrix (Fin (2 ^ n)) (Fin (2 ^ n)) ℂ) (gates : List EntryVal) : ℝ :=
  1 - overlap T (circuit n gates)

/-- When to stop: the distance is at most `1 - t`, or, without a threshold, at most `10⁻⁸`. -/
def GoodEnough (threshold : Option ℝ) (c : ℝ) : Prop :=
  match threshold with
  | some t => c ≤ 1 - t
  | none => |c| ≤ 1 / 100000000

/-- A candidate (`p` must be a probability): with probability `p` new gates are put in front (in reverse order) or at the end, otherwise `L`
gates are dropped from the front or from the end. -/
noncomputable def propose (p : ℝ) (fresh : PyM Rng (List EntryVal)) (L : ℕ) (gates : List EntryVal) :
    PyM Rng (List EntryVal) := do
  PyM.lift (raiseUnless (0 ≤ p ∧ p ≤ 1) .valueError)
  let u ← Rng.randomSample
  if u < p / 2 then do
    let new ← fresh
    return new.reverse ++ gates
  else if u < p then do
    let new ← fresh
    return gates ++ new
  else if u < p + (1 - p) / 2 then return gates.drop L
  else return gates.take (gates.length - L)

/-- One new gate. -/
def one (gen : PyM Rng EntryVal) : PyM Rng (List EntryVal) := do
  let v ← gen
  return [v]

/-- `k` new gates. -/
def many (gen : PyM Rng EntryVal) : ℕ → PyM Rng (List EntryVal)
  | 0 => pure []
  | k + 1 => do
    let v ← gen
    let vs ← many gen k
    return v :: vs

/-- The requested number of gates of each primitive, in order. -/
def block (gen : Primitive → PyM Rng EntryVal) : List (Primitive × ℤ) → PyM Rng (List EntryVal)
  | [] => pure []
  | (p, count) :: rest => do
    let vs ← many (gen p) count.toNat
    let more ← block gen rest
    return vs ++ more

/-- A random layer: the requested number of gates of each primitive, shuffled. -/
def layer (gen : Primitive → PyM Rng EntryVal) (counts : List (Primitive × ℤ)) : PyM Rng (List EntryVal) := do
  let vs ← block gen counts
  Rng.shuffle vs

/-- The current gates and the inverse temperature. -/
structure State where
  gates : List EntryVal
  beta : ℝ

/-- One step: raise the inverse temperature by `rate` up to `cap`, make a proposal, accept it with probability
`min 1 (exp (-β (new cost - old cost)))`. -/
noncomputable def step (n : ℕ) (T : Matrix (Fin (2 ^ n)) (Fin (2 ^ n)) ℂ) (rate cap : ℝ)
    (proposal : List EntryVal → PyM Rng (List EntryVal)) (st : State) : PyM Rng State := do
  let beta := min (st.beta + rate) cap
  let new ← proposal st.gates
  let u ← Rng.randomSample
  if u < min 1 (Real.exp (-beta * (cost n T new - cost n T st.gates))) then return ⟨new, beta⟩
  else return ⟨st.gates, beta⟩

/-- What holds of the walk whatever the costs and decisions are: in each of `k` steps a proposal is drawn, then one
uniform number, the inverse temperature is raised, and the next list is the proposed one or the old one.
`Walk rate cap proposal g b r k g' b' r'`: from gates `g`, inverse temperature `b` and random state `r`, `k` steps can
lead to `g'`, `b'`, `r'`. -/
inductive Walk (rate cap : ℝ) (proposal : List EntryVal → PyM Rng (List EntryVal)) :
    List EntryVal → ℝ → Rng → ℕ → List EntryVal → ℝ → Rng → Prop
  | refl (g b r) : Walk rate cap proposal g b r 0 g b r
  | step {g b r new r1 g1 k g' b' r'} : proposal g r = (.ok new, r1) → g1 = g ∨ g1 = new →
      Walk rate cap proposal g1 (min (b + rate) cap) { r1 with upos := r1.upos + 1 } k g' b' r' →
      Walk rate cap proposal g b r (k + 1) g' b' r'

/-- At most `k` steps; the states reached after each of them. -/
noncomputable def run (n : ℕ) (T : Matrix (Fin (2 ^ n)) (Fin (2 ^ n)) ℂ) (threshold : Option ℝ) (rate cap : ℝ)
    (proposal : List EntryVal → PyM Rng (List EntryVal)) : ℕ → State → PyM Rng (List State)
  | 0, _ => pure []
  | k + 1, st =>
    open Classical in
    if GoodEnough threshold (cost n T st.gates) then pure []
    else do
      let st' ← step n T rate cap proposal st
      let rest ← run n T threshold rate cap proposal k st'
      return st' :: rest

end Metropolis

/-- The candidates of `compile`: a random gate is added at one end, or the gate at one end is removed. -/
noncomputable def Compiler.proposal (τ : Arith) (C : Compiler) : List EntryVal → PyM Rng (List EntryVal) :=
  Metropolis.propose C.appendProbability
    (Metropolis.one (Compiler.createRandomEntryVal τ C.dimension C.primitives C.probabilities)) 1

/-- The candidates of `compile_layered`: a random layer is added at one end, or as many gates as a layer has are
removed from one end. -/
noncomputable def Compiler.layeredProposal (τ : Arith) (C : Compiler) (counts : List (Primitive × ℤ)) :
    List EntryVal → PyM Rng (List EntryVal) :=
  Metropolis.propose C.appendProbability
    (Metropolis.layer (fun p => Compiler.createRandomEntryVal τ C.dimension [p] none) counts)
    ((counts.map Prod.snd).sum : ℤ).toNat

/-- `unitary_primitives` is not empty, and not a numpy array of two or more elements. -/
def Compiler.Truthy (C : Compiler) : Prop :=
  C.primitives ≠ [] ∧ ¬ (C.primitivesIsArray = true ∧ C.primitives.length > 1)

/-- The annealing value `beta` of a compiler object. -/
def World.annealing (w : World) (C : Compiler) : Option ℝ := w.betas[C.self]?

/-! ## Where gates may come from -/

/-- The gate `v` is an instance of the primitive on qubits it may act on, in a system of `m` qubits: its unitary
is the primitive's, with parameters in range if there are any, and its qubits are an allowed list, or distinct
qubits of the system when there is no restriction. -/
def FromPrimitive (τ : Arith) (m : ℕ) (p : Primitive) (v : EntryVal) : Prop :=
  (match p.unitary with
    | .inl u => v.unitary = u
    | .inr pu => ∃ values : List ℝ, values.length = pu.parameters.length ∧
        (∀ pv ∈ pu.parameters.zip values, pv.1.minValue ≤ pv.2 ∧ pv.2 ≤ pv.1.maxValue) ∧
        pu.asUnitary τ values = .ok v.unitary) ∧
  (match p.allowedApplyTo with
    | some lists => v.applyTo.map Int.ofNat ∈ lists
    | none => v.applyTo.Nodup ∧ ∀ q ∈ v.applyTo, q < m)

/-- A layer: a rearrangement of groups, one for each item of `counts`, of the requested size and consisting of
instances of the requested primitive. -/
def IsLayer (τ : Arith) (m : ℕ) (counts : List (Primitive × ℤ)) (l : List EntryVal) : Prop :=
  ∃ groups : List (List EntryVal), l.Perm groups.flatten ∧
    List.Forall₂ (fun pc g => g.length = pc.2.toNat ∧ ∀ v ∈ g, FromPrimitive τ m pc.1 v) counts groups

/-- A primitive usable on `n` qubits: its unitary (for all parameter values in range) is exactly unitary on
`k ≥ 1` qubits, and its allowed qubit lists consist of `k` distinct qubits of the system. -/
def Primitive.Valid (n : ℕ) (p : Primitive) : Prop :=
  ∃ k, 1 ≤ k ∧ k ≤ n ∧
    (match p.unitary with
      | .inl u => u.Exact (2 ^ k)
      | .inr pu => pu.dimension = 2 ^ k ∧ (∀ q ∈ pu.parameters, q.minValue ≤ q.maxValue) ∧
          ∀ values : List ℝ, values.length = pu.parameters.length →
            (∀ pv ∈ pu.parameters.zip values, pv.1.minValue ≤ pv.2 ∧ pv.2 ≤ pv.1.maxValue) →
            ∃ a, pu.parameterizedMatrix values = .ok a ∧ a.rows = 2 ^ k ∧ a.cols = 2 ^ k ∧
              a.toMatrix (2 ^ k) ∈ Matrix.unitaryGroup (Fin (2 ^ k)) ℂ) ∧
    (match p.allowedApplyTo with
      | none => True
      | some lists => ∀ l ∈ lists, l.Nodup ∧ l.length = k ∧ ∀ q ∈ l, 0 ≤ q ∧ q < (n : ℤ))

end Stoq
