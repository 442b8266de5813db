import Verif.Spec.Drift
import Verif.Spec.Compile

/-!
# Compilation with the clean-up of small matrix entries and rounding

Stored unitaries are only close to ideal gates, and the costs that are measured are only close to the ideal ones.
-/

namespace Stoq

open Matrix

/-- A primitive usable on `n` qubits up to an error `ε`: as `Primitive.Valid`, but the matrices need only be close to
unitary ones.  A fixed unitary is within `ε`.  The matrix of a parameterized one, which has passed no constructor yet,
is so close that it is within `ε` after the clean-up and rounding. -/
def Primitive.Nearly (n : ℕ) (t ε : ℝ) (p : Primitive) : Prop :=
  ∃ k, 1 ≤ k ∧ k ≤ n ∧
    (match p.unitary with
      | .inl u => ∃ V ∈ unitaryGroup (Fin (2 ^ k)) ℂ, u.Near V ε
      | .inr pu => pu.dimension = 2 ^ k ∧ (∀ q ∈ pu.parameters, q.minValue ≤ q.maxValue) ∧
          ∀ values : List ℝ, values.length = pu.parameters.length →
            (∀ pv ∈ pu.parameters.zip values, pv.1.minValue ≤ pv.2 ∧ pv.2 ≤ pv.1.maxValue) →
            ∃ a, pu.parameterizedMatrix values = .ok a ∧ a.rows = 2 ^ k ∧ a.cols = 2 ^ k ∧
              ∃ V ∈ unitaryGroup (Fin (2 ^ k)) ℂ, ∃ ε', NearMat (a.toMatrix (2 ^ k)) V ε' ∧ ε' + 3 * 2 ^ k * t ≤ ε) ∧
    (match p.allowedApplyTo with
      | none => True
      | some lists => ∀ l ∈ lists, l.Nodup ∧ l.length = k ∧ ∀ q ∈ l, 0 ≤ q ∧ q < (n : ℤ))

/-- `ideal` assigns to every gate the primitives can yield an ideal gate that it realises up to `ε`. -/
def IdealFor (τ : Arith) (n : ℕ) (prims : List Primitive) (ε : ℝ) (ideal : EntryVal → Gate) : Prop :=
  ∀ p ∈ prims, ∀ v : EntryVal, v.WF → FromPrimitive τ n p v → (ideal v).Ok n ∧ v.Realises (ideal v) ε

namespace Metropolis

/-- Distance of the ideal gates from the target. -/
noncomputable def idealCost (n : ℕ) (T : Matrix (Fin (2 ^ n)) (Fin (2 ^ n)) ℂ) (ideal : EntryVal → Gate)
    (gates : List EntryVal) : ℝ := 1 - overlap T (gateProduct n (gates.map ideal))

/-- A run of at most `k` steps in which every cost is measured up to an error `E`, otherwise as `Metropolis.run`.
`NearRun … k g b r costs g' b' r'`: from gates `g`, inverse temperature `b` and random state `r` to `g'`, `b'`, `r'`,
recording `costs`. -/
inductive NearRun (cost : List EntryVal → ℝ) (E : ℝ) (threshold : Option ℝ) (rate cap : ℝ)
    (proposal : List EntryVal → PyM Rng (List EntryVal)) :
    ℕ → List EntryVal → ℝ → Rng → List ℝ → List EntryVal → ℝ → Rng → Prop
  /-- the cost is found to be good enough -/
  | stop {k g b r} (c : ℝ) : |c - cost g| ≤ E → GoodEnough threshold c →
      NearRun cost E threshold rate cap proposal k g b r [] g b r
  /-- no steps are left -/
  | out {g b r} : NearRun cost E threshold rate cap proposal 0 g b r [] g b r
  /-- the cost is found not to be good enough; a proposal is accepted -/
  | accept {k g b r new r1 costs g' b' r'} (c x y : ℝ) : |c - cost g| ≤ E → ¬ GoodEnough threshold c →
      proposal g r = (.ok new, r1) → |x - cost g| ≤ E → |y - cost new| ≤ E →
      (r1.unif r1.upos : ℝ) < min 1 (Real.exp (-min (b + rate) cap * (y - x))) →
      NearRun cost E threshold rate cap proposal k new (min (b + rate) cap) { r1 with upos := r1.upos + 1 } costs g' b' r' →
      NearRun cost E threshold rate cap proposal (k + 1) g b r (y :: costs) g' b' r'
  /-- the cost is found not to be good enough; a proposal is rejected -/
  | reject {k g b r new r1 costs g' b' r'} (c x y : ℝ) : |c - cost g| ≤ E → ¬ GoodEnough threshold c →
      proposal g r = (.ok new, r1) → |x - cost g| ≤ E → |y - cost new| ≤ E →
      ¬ (r1.unif r1.upos : ℝ) < min 1 (Real.exp (-min (b + rate) cap * (y - x))) →
      NearRun cost E threshold rate cap proposal k g (min (b + rate) cap) { r1 with upos := r1.upos + 1 } costs g' b' r' →
      NearRun cost E threshold rate cap proposal (k + 1) g b r (x :: costs) g' b' r'

end Metropolis

/-- Error of a measured cost: the target is stored up to `δ`, the product up to the error after `k` operations. -/
noncomputable def costErr (n : ℕ) (t ε δ : ℝ) (k : ℕ) : ℝ := (1 + (δ + 3 * 2 ^ n * t)) * (1 + driftErr n t ε (k + 1)) - 1

end Stoq
