import Mathlib.Data.Rat.Defs
import Mathlib.Algebra.Field.Rat
import Mathlib.Algebra.Order.Field.Rat
/-! Rounding up. -/
namespace ELC.Native.Spec

/-- `r` is `a/b` rounded up: the least integer that is not below it. -/
def IsCeil (a b r : Int) : Prop := (a : ℚ) / b ≤ r ∧ (r : ℚ) - 1 < (a : ℚ) / b

/-- Same signs (zero with any). -/
def SameSign (a b : Int) : Prop := (0 ≤ a ∧ 0 < b) ∨ (a ≤ 0 ∧ b < 0)

end ELC.Native.Spec
