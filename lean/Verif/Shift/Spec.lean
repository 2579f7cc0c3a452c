import Mathlib.Data.Rat.Defs
import Mathlib.Algebra.Order.Field.Rat
/-! What a shift has to deliver. -/
namespace ELC.Shift.Spec

/-- `z` is `q` without its fraction. -/
def Truncated (q : ℚ) (z : ℤ) : Prop := |(z : ℚ)| ≤ |q| ∧ |q| < |(z : ℚ)| + 1 ∧ 0 ≤ q * z

end ELC.Shift.Spec
