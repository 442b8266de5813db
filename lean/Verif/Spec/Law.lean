import Mathlib.Probability.ProbabilityMassFunction.Constructions
import Mathlib.Probability.Distributions.Uniform
import Verif.Spec.Probability
import Verif.Spec.Draws
import Verif.Spec.Compile

/-!
# Distributions of results

What a program returns when the random source delivers independent uniform numbers.
-/

namespace Stoq

open MeasureTheory ProbabilityTheory

namespace Rng

/-- What the random source will deliver: real numbers and integers. -/
abbrev Tape := (ℕ → Set.Ico (0 : ℝ) 1) × (ℕ → ℕ)

/-- The random source at the beginning of a tape. -/
def start (t : Tape) : Rng := ⟨t.1, t.2, 0, 0⟩

/-- What a random source has not delivered yet. -/
def rest (r : Rng) : Tape := (fun i => r.unif (r.upos + i), fun i => r.nat (r.npos + i))

/-- The tape after `a` real numbers and `b` integers. -/
def Tape.drop (t : Tape) (n : ℕ × ℕ) : Tape := (fun i => t.1 (n.1 + i), fun i => t.2 (n.2 + i))

/-- An integer below `B!`, all with the same probability; its remainder for any divisor up to `B` is then uniform. -/
noncomputable def uniformNat (B : ℕ) : Measure ℕ :=
  (PMF.uniformOfFinset (Finset.range B.factorial) (Finset.nonempty_range_iff.mpr B.factorial_ne_zero)).toMeasure

instance (B : ℕ) : IsProbabilityMeasure (uniformNat B) := by unfold uniformNat; infer_instance

/-- All numbers on the tape are independent; real numbers are uniform on `[0, 1)` and integers uniform for draws from up
to `B` possibilities. -/
noncomputable def tapes (B : ℕ) : Measure Tape := uniformTape.prod (Measure.infinitePi fun _ => uniformNat B)

instance (B : ℕ) : IsProbabilityMeasure (tapes B) := by unfold tapes; infer_instance

/-- The program never raises an exception, its result has the distribution `law`, and what it leaves of the tape is
distributed as before and independent of the result. -/
def HasLaw {α : Type} (B : ℕ) (m : PyM Rng α) (law : PMF α) : Prop :=
  ∃ (f : Tape → α) (used : Tape → ℕ × ℕ),
    (∀ r : Rng, m r = (.ok (f r.rest), r.skip (used r.rest).1 (used r.rest).2)) ∧ (∀ t, f t ∈ law.support) ∧
      ∀ a S, MeasurableSet S → MeasurableSet {t | f t = a ∧ t.drop (used t) ∈ S} ∧
        tapes B {t | f t = a ∧ t.drop (used t) ∈ S} = law a * tapes B S

end Rng

/-- `true` with probability `p`, for `p` between 0 and 1. -/
noncomputable def coin (p : ℝ) : PMF Bool :=
  PMF.ofFintype (fun b => ENNReal.ofReal (if b then max 0 (min p 1) else 1 - max 0 (min p 1))) (by
    rw [Fintype.sum_bool, ← ENNReal.ofReal_add (by simp) (by simp)]
    simp)

/-- All orders of the elements of a list, with the same probability. -/
noncomputable def shuffleLaw {α : Type} (l : List α) : PMF (List α) :=
  (PMF.uniformOfFintype (Equiv.Perm (Fin l.length))).map fun σ : Equiv.Perm (Fin l.length) => List.ofFn fun i => l.get (σ i)

/-- Indices are drawn with the same probability, or in proportion to the numbers given. -/
def IsIndexLaw {n : ℕ} (probs : Option (List ℝ)) (ι : PMF (Fin n)) : Prop :=
  match probs with
  | none => ∀ i, ι i = (n : ENNReal)⁻¹
  | some p => ∃ h : p.length = n, ∀ i : Fin n, ι i = ENNReal.ofReal (p[i.val]'(by omega) / p.sum)

/-- The distribution of the random instances of a primitive without parameters on `n` qubits: a uniformly chosen one of
the allowed lists of qubits, or the first qubits in a uniformly chosen order. -/
def Primitive.IsLaw (n : ℕ) (p : Primitive) (law : PMF EntryVal) : Prop :=
  ∃ u, p.unitary = .inl u ∧
    match p.allowedApplyTo with
    | some lists => ∃ (ι : PMF (Fin lists.length)), IsIndexLaw none ι ∧
        law = ι.map fun j => ⟨u, (lists.get j).map Int.toNat⟩
    | none => ∃ k, u.getDimension = 2 ^ k ∧ law = (shuffleLaw (List.range n)).map fun order => ⟨u, order.take k⟩

/-- The distribution of random gates: a primitive is chosen among those that can be placed, then an instance of it. -/
def IsGateLaw (n : ℕ) (prims : List Primitive) (probs : Option (List ℝ)) (law : PMF EntryVal) : Prop :=
  ∃ (ι : PMF (Fin (placeable prims).length)) (g : Fin (placeable prims).length → PMF EntryVal), IsIndexLaw probs ι ∧
    (∀ i, ((placeable prims).get i).IsLaw n (g i)) ∧ law = ι.bind g

namespace Metropolis

/-- `k` independent new gates. -/
noncomputable def manyLaw (g : PMF EntryVal) : ℕ → PMF (List EntryVal)
  | 0 => pure []
  | k + 1 => do
    let v ← g
    let vs ← manyLaw g k
    return v :: vs

/-- The requested number of independent gates of each primitive. -/
noncomputable def blockLaw (g : Primitive → PMF EntryVal) : List (Primitive × ℤ) → PMF (List EntryVal)
  | [] => pure []
  | (p, count) :: rest => do
    let vs ← manyLaw (g p) count.toNat
    let more ← blockLaw g rest
    return vs ++ more

/-- These gates in random order. -/
noncomputable def layerLaw (g : Primitive → PMF EntryVal) (counts : List (Primitive × ℤ)) : PMF (List EntryVal) := do
  let vs ← blockLaw g counts
  shuffleLaw vs

/-- The distribution of the candidates of `propose`, when `fresh` is that of the new gates. -/
noncomputable def proposeLaw (p : ℝ) (fresh : PMF (List EntryVal)) (L : ℕ) (gates : List EntryVal) :
    PMF (List EntryVal) := do
  let add ← coin p
  let front ← coin (1 / 2)
  if add then do
    let new ← fresh
    return if front then new.reverse ++ gates else gates ++ new
  else return if front then gates.drop L else gates.take (gates.length - L)

/-- The distribution of the next state: a candidate, accepted with probability `min 1 (exp (-β (new cost - old cost)))`. -/
noncomputable def stepLaw (n : ℕ) (T : Matrix (Fin (2 ^ n)) (Fin (2 ^ n)) ℂ) (rate cap : ℝ)
    (proposal : List EntryVal → PMF (List EntryVal)) (st : State) : PMF State := do
  let beta := min (st.beta + rate) cap
  let new ← proposal st.gates
  let accepted ← coin (min 1 (Real.exp (-beta * (cost n T new - cost n T st.gates))))
  return ⟨if accepted then new else st.gates, beta⟩

/-- The Markov chain with these steps, run until the cost is good enough or `k` steps are done; the states reached. -/
noncomputable def runLaw (n : ℕ) (T : Matrix (Fin (2 ^ n)) (Fin (2 ^ n)) ℂ) (threshold : Option ℝ) (rate cap : ℝ)
    (proposal : List EntryVal → PMF (List EntryVal)) : ℕ → State → PMF (List State)
  | 0, _ => pure []
  | k + 1, st =>
    open Classical in
    if GoodEnough threshold (cost n T st.gates) then pure []
    else do
      let st' ← stepLaw n T rate cap proposal st
      let rest ← runLaw n T threshold rate cap proposal k st'
      return st' :: rest

/-- The largest cost that is good enough. -/
noncomputable def allowed : Option ℝ → ℝ
  | some t => 1 - t
  | none => 1 / 100000000

end Metropolis

end Stoq
