import Mathlib.Probability.ProductMeasure
import Mathlib.Probability.Moments.Variance
import Mathlib.MeasureTheory.Measure.Lebesgue.Basic
import Verif.Model.Rng

/-!
# Random numbers as random variables

The real numbers delivered by the random source are independent and uniform on `[0, 1)`.
-/

namespace Stoq

open MeasureTheory ProbabilityTheory

/-- A number uniform on `[0, 1)`: length of intervals. -/
noncomputable def uniformUnit : Measure (Set.Ico (0 : ℝ) 1) := Measure.comap Subtype.val volume

/-- Infinitely many independent numbers, uniform on `[0, 1)`. -/
noncomputable def uniformTape : Measure (ℕ → Set.Ico (0 : ℝ) 1) := Measure.infinitePi fun _ => uniformUnit

instance : IsProbabilityMeasure uniformUnit where
  measure_univ := by
    rw [uniformUnit, comap_subtype_coe_apply measurableSet_Ico, Set.image_univ, Subtype.range_coe, Real.volume_Ico,
      sub_zero, ENNReal.ofReal_one]

instance : IsProbabilityMeasure uniformTape := by unfold uniformTape; infer_instance

/-- The program never raises an exception, whatever the random source, and for independent uniform numbers its result
is a random variable with this mean and variance, wherever on the tape it starts. -/
def Rng.Estimates (m : PyM Rng ℝ) (mean variance : ℝ) : Prop :=
  ∀ (nat : ℕ → ℕ) (upos npos : ℕ), ∃ X : (ℕ → Set.Ico (0 : ℝ) 1) → ℝ,
    (∀ ω, (m ⟨ω, nat, upos, npos⟩).1 = .ok (X ω)) ∧ Measurable X ∧ MemLp X 2 uniformTape ∧
      ∫ ω, X ω ∂uniformTape = mean ∧ Var[X; uniformTape] = variance

end Stoq
