import Verif.Wide.Model
import Verif.Ubig.Spec
import Mathlib.Data.Rat.Defs
import Mathlib.Algebra.Field.Rat
import Mathlib.Algebra.Order.Field.Rat
/-! What a sign and stored digits denote.  `Ubig.Spec.Stores w l n`: the array `l` is the stored form of `n`. -/
namespace ELC.Wide.Spec
open Ubig.Spec (Stores)

/-- The sign and the digits denote the integer `z`. -/
def IsInt (w : Nat) (a : SBig) (z : Int) : Prop := ∃ n : Nat, Stores w a.num n ∧ z = if a.neg then -(n : Int) else n

/-- Not a negative zero. -/
def Normal (a : SBig) : Prop := a.num = [] → a.neg = false

/-- The digits of numerator and denominator denote the rational `q`. -/
def IsFrac (w : Nat) (a : SFrac) (q : ℚ) : Prop :=
  ∃ n d : Nat, Stores w a.num n ∧ Stores w a.den d ∧ d ≠ 0 ∧ q = (n : ℚ) / (d : ℚ)

/-- The sign and the digits of numerator and denominator denote the rational `q`. -/
def IsRat (w : Nat) (a : SRat) (q : ℚ) : Prop := ∃ p, IsFrac w a.num p ∧ q = if a.neg then -p else p

/-- Numerator and denominator have fewer than `m` digits. -/
def Shorter (m : Nat) (a : SFrac) : Prop := a.num.length < m ∧ a.den.length < m

end ELC.Wide.Spec
