import Mathlib.Data.Rat.Defs
import Mathlib.Data.Int.ModEq
import Mathlib.Algebra.Field.Rat
/-! What a native integer type holds, and what a conversion to it should give. -/
namespace ELC.Convert.Spec

/-- `v` is one of the numbers of a type of `bits` bits. -/
def Fits (signed : Bool) (bits : Nat) (v : Int) : Prop :=
  if signed then -2 ^ (bits - 1) ≤ v ∧ v < 2 ^ (bits - 1) else 0 ≤ v ∧ v < 2 ^ bits

instance (s : Bool) (b : Nat) (v : Int) : Decidable (Fits s b v) := by unfold Fits; infer_instance

/-- `r` is what the language makes of the integer `v` in such a type: the number of the type congruent to it. -/
def Cast (signed : Bool) (bits : Nat) (v r : Int) : Prop := Fits signed bits r ∧ r ≡ v [ZMOD 2 ^ bits]

end ELC.Convert.Spec
