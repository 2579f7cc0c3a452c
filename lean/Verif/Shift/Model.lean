import Verif.Native.Model
import Verif.Wide.Model
/-!
Shifting big integers by counts with a sign and by counts that are big integers themselves: F/bignum/bignum/ubigint.hpp:933-1018,
1072-1135 and F/bignum/bignum/bigint.hpp:186-209, 257-266.  `Ubig.shl`, `Ubig.shr` and `Ubig.shrAssign` are the branches for an
unsigned native count; `w` is the number of bits of a digit and `size_t` has 64 bits.
-/
namespace ELC.Shift
open ELC.Ubig (Digits)
open ELC.Convert (NType)
open ELC.Native (absN isNeg)
open ELC.Wide (SBig)

/-! ### counts of a native type `T` -/

/-- ubigint.hpp:935-967 `operator<<`. -/
def shl (w : Nat) (T : NType) (a : Digits) (c : Int) : Option Digits :=
  (absN T c).bind fun n => if isNeg T c then Ubig.shr w a n else some (Ubig.shl w a n)

/-- ubigint.hpp:988-1018 `operator>>`. -/
def shr (w : Nat) (T : NType) (a : Digits) (c : Int) : Option Digits :=
  (absN T c).bind fun n => if isNeg T c then some (Ubig.shl w a n) else Ubig.shr w a n

/-- ubigint.hpp:1074-1103 `operator<<=`. -/
def shlAssign (w : Nat) (T : NType) (a : Digits) (c : Int) : Option Digits :=
  (absN T c).map fun n => if isNeg T c then Ubig.shrAssign w a n else Ubig.shl w a n

/-- ubigint.hpp:1106-1135 `operator>>=`. -/
def shrAssign (w : Nat) (T : NType) (a : Digits) (c : Int) : Option Digits :=
  (absN T c).map fun n => if isNeg T c then Ubig.shl w a n else Ubig.shrAssign w a n

/-- bigint.hpp:187-189 `operator<<`. -/
def intShl (w : Nat) (T : NType) (a : SBig) (c : Int) : Option SBig := (shl w T a.num c).map fun m => SBig.make m a.neg

/-- bigint.hpp:192-194 `operator>>`. -/
def intShr (w : Nat) (T : NType) (a : SBig) (c : Int) : Option SBig := (shr w T a.num c).map fun m => SBig.make m a.neg

/-- bigint.hpp:257-260 `operator<<=`. -/
def intShlAssign (w : Nat) (T : NType) (a : SBig) (c : Int) : Option SBig := (shlAssign w T a.num c).map fun m => ⟨a.neg, m⟩

/-- bigint.hpp:263-266 `operator>>=`. -/
def intShrAssign (w : Nat) (T : NType) (a : SBig) (c : Int) : Option SBig := (shrAssign w T a.num c).map fun m => ⟨a.neg, m⟩

/-! ### counts of type `ubigint` and `bigint` -/

/-- ubigint.hpp:859-861 `to_size_t`: 110-122 `convert_to<size_t>` keeps the lowest bits (`Ubig.convertTo`). -/
def toSize (n : Nat) : Nat := n % 2 ^ 64

/-- ubigint.hpp:951-954, 1003-1005, 1089-1092, 1122-1125: a digit is shifted by `offset` and by `another_offset`; both have to be
less than its number of bits. -/
def offsets (w n : Nat) : Option Nat := if toSize n = 0 ∨ w ≤ toSize n then none else some (toSize n)

/-- ubigint.hpp:940-966 `operator<<` and 1079-1102 `operator<<=` for a count of type `ubigint`.  Simplification: there is room for
the result. -/
def shlBig (w : Nat) (a : Digits) (n : Nat) : Option Digits :=
  if a = [] then some []
  else
    let q := toSize (n / w)
    let n := if q ≠ 0 then n % w else n
    (if n ≠ 0 then (offsets w n).map fun o => Ubig.shlLoop w o a 0 else some a).map fun r => List.replicate q 0 ++ r

/-- ubigint.hpp:993-1017 `operator>>` for a count of type `ubigint`; as in `Ubig.shr` the loop leaves the result if digits and bits
are dropped. -/
def shrBig (w : Nat) (a : Digits) (n : Nat) : Option Digits :=
  if a = [] then some []
  else
    let q := toSize (n / w)
    if q ≥ a.length then some []
    else
      let n := if q ≠ 0 then n % w else n
      if n ≠ 0 then
        if q ≠ 0 then none else (offsets w n).map fun o => Ubig.shrink (Ubig.shrLoop w o a).1
      else some (a.drop q)

/-- ubigint.hpp:1111-1134 `operator>>=` for a count of type `ubigint`. -/
def shrAssignBig (w : Nat) (a : Digits) (n : Nat) : Option Digits :=
  if a = [] then some []
  else
    let q := toSize (n / w)
    if q ≠ 0 ∧ q ≥ a.length then some []
    else
      let a := a.drop q
      let n := if q ≠ 0 then n % w else n
      if n ≠ 0 then (offsets w n).map fun o => Ubig.shrink (Ubig.shrLoop w o a).1 else some a

/-- bigint.hpp:196-201 `operator<<(ubigint,bigint)`. -/
def shlByInt (w : Nat) (a : Digits) (neg : Bool) (n : Nat) : Option SBig :=
  (if neg then shrBig w a n else shlBig w a n).map fun m => SBig.make m false

/-- bigint.hpp:202-207 `operator>>(ubigint,bigint)`. -/
def shrByInt (w : Nat) (a : Digits) (neg : Bool) (n : Nat) : Option SBig :=
  (if neg then shlBig w a n else shrBig w a n).map fun m => SBig.make m false

end ELC.Shift
