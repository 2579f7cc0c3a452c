import Mathlib.Data.Rat.Floor
import Mathlib.Tactic.Ring
import Verif.Convert.Model
/-! Straight lines between two points, and what is assumed of floating point arithmetic. -/
namespace ELC.Interp.Spec
open ELC.Convert (NType)

/-- The value at `d` of the straight line through `y1` at 0 and `y2` at 1. -/
def line (y1 y2 d : ℚ) : ℚ := (1 - d) * y1 + d * y2

/-- The rounding of `double`: it keeps the order, and it keeps the numbers that need no more than 53 bits. -/
structure IsRounding (rnd : ℚ → ℚ) : Prop where
  mono : ∀ {a b}, a ≤ b → rnd a ≤ rnd b
  exact : ∀ (n : Int) (m : Nat), |n| ≤ 2 ^ 53 → m ≤ 64 → rnd (n / 2 ^ m) = n / 2 ^ m

/-- `x` has no more than 20 bits behind the point. -/
def Short (x : ℚ) : Prop := ∃ n : Int, x = n / 2 ^ 20

/-- The characters for which differences are right: an unsigned type of at most 32 bits, and the lower half of its numbers. -/
def Small (T : NType) (s : List Nat) : Prop := T.signed = false ∧ T.bits ≤ 32 ∧ ∀ c ∈ s, c < 2 ^ (T.bits - 1)

end ELC.Interp.Spec
