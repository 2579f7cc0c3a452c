/-!
What a digit array means.  Independent of the model: positional notation, least significant digit
first, in base `2^w`.
-/
namespace ELC.Ubig.Spec

/-- Positional value. -/
def val (w : Nat) : List Nat → Nat
  | [] => 0
  | x :: l => x + 2 ^ w * val w l

/-- Every digit is below the base. -/
def Digits (w : Nat) (l : List Nat) : Prop := ∀ d ∈ l, d < 2 ^ w

/-- The most significant digit is not zero. -/
def NoLeadingZero (l : List Nat) : Prop := ∀ d, l.getLast? = some d → d ≠ 0

/-- `l` is the stored form of the number `v`. -/
structure Stores (w : Nat) (l : List Nat) (v : Nat) : Prop where
  digits : Digits w l
  noLeadingZero : NoLeadingZero l
  value : val w l = v

end ELC.Ubig.Spec
