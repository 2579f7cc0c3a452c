import Verif.Bigfloat.Model
import Mathlib.Data.Rat.Defs
import Mathlib.Algebra.Field.Rat
import Mathlib.Algebra.Order.Field.Rat
/-! The rational number a fraction denotes. -/
namespace ELC.Bigfloat.Spec

/-- The rational number denoted by a numerator and a denominator. -/
def uvalue (a : UFrac) : ℚ := (a.num : ℚ) / (a.den : ℚ)

/-- A finite fraction (a zero denominator stands for infinity). -/
def Finite (a : UFrac) : Prop := a.den ≠ 0

/-- The rational number denoted by a sign and a fraction. -/
def value (a : Frac) : ℚ := if a.neg then -uvalue a.num else uvalue a.num

/-- Not a negative zero. -/
def Normal (a : Frac) : Prop := a.num.num = 0 → a.neg = false

end ELC.Bigfloat.Spec
