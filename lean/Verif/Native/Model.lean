import Verif.Convert.Model
/-!
Operations that mix native integers with big numbers, or work on native integers: division of a native integer by a big
one, powers with a signed exponent, `divmod`, `ceil_div`, `sub` and `is_odd` of `F/base_defs/math.hpp`.

A native integer is an integer together with its type `Convert.NType`.  Simplification: the magnitudes of big numbers are
natural numbers with exact arithmetic (see the `Ubig` modules); both native operands have the same type.  `int` has 32 bits.
`none` is undefined behaviour.
-/
namespace ELC.Native
open ELC.Convert (NType castTo negTo)
open Bigfloat (UFrac Frac)

/-! ### A native integer divided by a big one -/

/-- math.hpp:193-201 `abs` of a native integer. -/
def absN (T : NType) (a : Int) : Option Nat := if T.signed then Numeral.absSigned T.bits a else some a.toNat

/-- math.hpp:56-65 `is_negative` of a native integer. -/
def isNeg (T : NType) (a : Int) : Bool := T.signed && decide (a < 0)

/-- math.hpp:67-82 `copy_as_negative` of a number of type `T`: `T{}-x` is computed as `int` if `T` is narrower, without sign if
`T` is unsigned, and must not overflow otherwise. -/
def copyNeg (T : NType) (x : Int) (negative : Bool) : Option Int :=
  if negative then
    if T.bits < 32 then some (0 - x)
    else if T.signed then (if x = T.min then none else some (0 - x))
    else some ((0 - x) % 2 ^ T.bits)
  else some x

/-- ubigint.hpp:1285-1289 `operator/(T&&,ubigint)`. -/
def divUbig (T : NType) (a : Int) (b : Nat) : Option Int :=
  (absN T a).bind fun m => copyNeg T (castTo T (Bigint.udiv m b : Nat)) (isNeg T a)

/-- ubigint.hpp:1290-1294 `operator%(T&&,ubigint)`. -/
def modUbig (T : NType) (a : Int) (b : Nat) : Option Int :=
  (absN T a).bind fun m => copyNeg T (castTo T (Bigint.umod m b : Nat)) (isNeg T a)

/-- bigint.hpp:100-105 `bigint::convert_to<T>`, with the magnitude as a number. -/
def bigTo (T : NType) (a : Bigint.Big) : Int :=
  if T.signed then negTo T (a.num % 2 ^ T.bits) a.neg else ((a.num % 2 ^ T.bits : Nat) : Int)

/-- bigint.hpp:387-391 `operator/(T&&,bigint)`: the quotient of `abs(a)` and `b`, with its sign, then the sign of `a/b`. -/
def divBig (T : NType) (a : Int) (b : Bigint.Big) : Option Int :=
  (absN T a).bind fun m => copyNeg T (bigTo T (Bigint.div ⟨false, m⟩ b)) (isNeg T a != b.neg)

/-- bigint.hpp:392-396 `operator%(T&&,bigint)`. -/
def modBig (T : NType) (a : Int) (b : Bigint.Big) : Option Int :=
  (absN T a).bind fun m => copyNeg T (bigTo T (Bigint.mod ⟨false, m⟩ b)) (isNeg T a)

/-! ### Powers -/

/-- math.hpp:316-324, the loop of `pow` for `ubigfloat`; `a*=a` has the same object on both sides. -/
def ufracPowLoop (a : UFrac) (b : Nat) (aret : UFrac) : UFrac :=
  if _h : b = 0 then aret
  else ufracPowLoop (UFrac.mulAssign true a a) (b / 2) (if b % 2 = 1 then UFrac.mulAssign false aret a else aret)
termination_by b
decreasing_by omega

/-- math.hpp:309-325 `pow` for `ubigfloat`. -/
def ufracPow (a : UFrac) (b : Nat) : UFrac := ufracPowLoop a b (UFrac.ofNat 1)

/-- ubigfloat.hpp:477-485 `pow(ubigfloat,bigint)`. -/
def ufracPowInt (base : UFrac) (exp : Int) : UFrac :=
  let aret : UFrac := if exp < 0 then ⟨base.den, base.num⟩ else base
  ufracPow aret exp.natAbs

/-- ubigfloat.hpp:519-525 `pow(ubigint,T)` for a signed exponent. -/
def natPowInt (base : Nat) (exp : Int) : UFrac :=
  if exp < 0 then (UFrac.ofNat 1).divNat (Arith.powBig base exp.natAbs)
  else UFrac.ofNat (Arith.powBig base exp.natAbs)

/-- bigfloat.hpp:348-352 `pow(bigfloat,ubigint)`. -/
def fracPow (base : Frac) (exp : Nat) : Frac :=
  ⟨base.neg && decide (exp % 2 = 1), ufracPow base.num exp⟩

/-- bigfloat.hpp:353-357 `pow(bigfloat,bigint)`. -/
def fracPowInt (base : Frac) (exp : Int) : Frac :=
  ⟨base.neg && decide (exp.natAbs % 2 = 1), ufracPow base.num exp.natAbs⟩

/-- bigfloat.hpp:399-405 `pow(bigint,T)` for a signed exponent; `bigfloat/bigint` is 219-222, the power of the `bigint` that of
math.hpp:311-315. -/
def intPowInt (base : Int) (exp : Int) : Frac :=
  let p := Arith.powSigned base exp.natAbs
  if exp < 0 then ⟨false != decide (p < 0), (UFrac.ofNat 1).divNat p.natAbs⟩
  else Frac.ofInt p

/-! ### Native integers alone -/

/-- The width in which the language computes: that of `int` at least. -/
def promBits (T : NType) : Nat := if T.bits < 32 then 32 else T.bits
/-- Whether it computes with a sign. -/
def promSigned (T : NType) : Bool := if T.bits < 32 then true else T.signed

/-- math.hpp:144-156 `divmod` of two native integers of one type. -/
def divmod (T : NType) (a b : Int) : Option (Int × Int) :=
  if b = 0 then none
  else if promSigned T = true ∧ a = -2 ^ (promBits T - 1) ∧ b = -1 then none
  else some (a.tdiv b, a.tmod b)

/-- math.hpp:158-162 `ceil_div`: `quot+(mod?1u:0u)` is computed as `unsigned` unless the quotient is wider. -/
def ceilDiv (T : NType) (a b : Int) : Option Int :=
  (divmod T a b).bind fun (quot, mod) =>
    let s := quot + (if mod ≠ 0 then 1 else 0)
    if promBits T = 32 then some (s % 2 ^ 32)
    else if T.signed then (if -2 ^ (T.bits - 1) ≤ s ∧ s < 2 ^ (T.bits - 1) then some s else none)
    else some (s % 2 ^ T.bits)

/-- math.hpp:211-222 `sub` of two native integers of one type: both are converted to the signed type of that width (`int` if
it is narrower), then subtracted. -/
def sub (T : NType) (a b : Int) : Option Int :=
  if T.bits < 32 then some (a - b)
  else
    let S : NType := ⟨true, T.level⟩
    let d := castTo S a - castTo S b
    if -2 ^ (T.bits - 1) ≤ d ∧ d < 2 ^ (T.bits - 1) then some d else none

/-- math.hpp:131-136 `is_odd`: `x&1` on the representation. -/
def isOdd (T : NType) (a : Int) : Bool := (a % 2 ^ T.bits).toNat &&& 1 != 0

end ELC.Native
