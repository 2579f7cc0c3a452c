import Mathlib.Algebra.Order.Field.Rat
import Mathlib.Algebra.Order.Field.Power
/-! The binary floating point formats of IEEE 754 and the numbers they denote. -/
namespace ELC.Float.Spec

/-- A binary interchange format: bits altogether, bits of the fraction, bias of the exponent. -/
structure Format where
  width : Nat
  p : Nat
  bias : Nat

def binary16 : Format := ⟨16, 10, 15⟩
def bfloat16 : Format := ⟨16, 7, 127⟩
def binary32 : Format := ⟨32, 23, 127⟩
def binary64 : Format := ⟨64, 52, 1023⟩
def binary128 : Format := ⟨128, 112, 16383⟩

/-- The fraction field of the datum with bits `d`. -/
def fraction (f : Format) (d : Nat) : Nat := d % 2 ^ f.p

/-- The exponent field. -/
def field (f : Format) (d : Nat) : Nat := d / 2 ^ f.p % 2 ^ (f.width - 1 - f.p)

/-- The magnitude denoted (IEEE 754, 3.4), the sign bit aside. -/
def magnitude (f : Format) (d : Nat) : ℚ :=
  if field f d = 0 then (fraction f d : ℚ) * 2 ^ (1 - f.bias - f.p : ℤ)
  else (2 ^ f.p + fraction f d : ℚ) * 2 ^ (field f d - f.bias - f.p : ℤ)

/-- Neither infinite nor a NaN. -/
def Finite (f : Format) (d : Nat) : Prop := field f d ≠ 2 ^ (f.width - 1 - f.p) - 1

/-- A finite number with the sign bit clear. -/
def Plain (f : Format) (d : Nat) : Prop := d < 2 ^ (f.width - 1) ∧ Finite f d

/-- `d` is the greatest number of the format not above `q`. -/
def Down (f : Format) (q : ℚ) (d : Nat) : Prop :=
  Plain f d ∧ magnitude f d ≤ q ∧ ∀ d', Plain f d' → magnitude f d' ≤ q → magnitude f d' ≤ magnitude f d

/-- `d` is the least number of the format not below `q`. -/
def Up (f : Format) (q : ℚ) (d : Nat) : Prop :=
  Plain f d ∧ q ≤ magnitude f d ∧ ∀ d', Plain f d' → q ≤ magnitude f d' → magnitude f d ≤ magnitude f d'

/-- `d` is a number of the format nearest to `q`. -/
def Nearest (f : Format) (q : ℚ) (d : Nat) : Prop :=
  Plain f d ∧ ∀ d', Plain f d' → |q - magnitude f d| ≤ |q - magnitude f d'|

/-- Rounding to nearest, ties to even (IEEE 754, 4.3.1). -/
def Rounded (f : Format) (q : ℚ) (d : Nat) : Prop :=
  Nearest f q d ∧ ∀ d', Plain f d' → d' ≠ d → |q - magnitude f d'| = |q - magnitude f d| → d % 2 = 0

end ELC.Float.Spec
