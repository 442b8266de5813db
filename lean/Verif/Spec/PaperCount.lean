import Verif.Spec.Jaqal

/-!
# Texts of programs
-/

namespace Stoq

/-- The texts of numbers have no line breaks. -/
def Jaqal.OneLine (fmt : ℝ → String) : Prop := ∀ x, ∀ c ∈ (fmt x).toList, c ≠ '\n' ∧ c ≠ '\r'

/-- The number of `MS` gates of a program. -/
def Jaqal.msCount (ss : List Jaqal.Statement) : ℕ := ss.countP fun s => s.name = "MS"

end Stoq
