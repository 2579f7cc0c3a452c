import Verif.Ubig.Model
import Verif.Bigfloat.Model
import Verif.Bigint.Model
import Verif.Numeral.Model
/-!
Conversion of the big numbers to native integers: `is_safe_convert_to<T>`, which tells whether a conversion
keeps the value, and `convert_to<T>`, for the four classes of `F/bignum/bignum/`.

A native integer type has `8·2^level` bits, which covers all of them.  The unsigned big integer is its digit
array (see the `Ubig` modules), with digits of `w` bits.  Simplification: the fractions are pairs of natural
numbers as in the `Bigfloat` modules; conversion to floating point types is in the `Float` modules; `bool` is left out.
`none` is an operation whose behaviour is undefined.
-/
namespace ELC.Convert

/-- F/base_defs/arithmetic_type_info_prover.hpp:33-120: what the conversions ask of a native integer type. -/
structure NType where
  signed : Bool
  level : Nat
deriving DecidableEq, Repr

namespace NType
/-- `bitnum_of(T)`. -/
def bits (T : NType) : Nat := Bits.bitsOf T.level
/-- F/base_defs/arithmetic_type_info_prover.hpp:102-107 `min()`. -/
def min (T : NType) : Int := if T.signed then -2 ^ (T.bits - 1) else 0
/-- F/base_defs/arithmetic_type_info_prover.hpp:108-110 `max()`. -/
def max (T : NType) : Nat := if T.signed then 2 ^ (T.bits - 1) - 1 else 2 ^ T.bits - 1
/-- `to_unsigned_t<T>`. -/
def toUnsigned (T : NType) : NType := ⟨false, T.level⟩
end NType

/-- The conversion of an integer to a native type done by the language: modulo `2^bits`. -/
def castTo (T : NType) (v : Int) : Int :=
  let r := v % 2 ^ T.bits
  if T.signed && decide (2 ^ (T.bits - 1) ≤ r) then r - 2 ^ T.bits else r

/-! ### ubigint -/

/-- ubigint.hpp:229-248 `operator<=>(T)` of a `ubigint` with a native integer: smaller than none that is negative,
otherwise the comparison with the unsigned type. -/
def ubigCmp (w : Nat) (T : NType) (l : Ubig.Digits) (v : Int) : Ordering :=
  if T.signed && decide (v < 0) then .gt else Ubig.cmpNative w T.bits l v.toNat

/-- ubigint.hpp:99 `max_byte_size`: `ceil_div(get_bitnum(max_value),bitnum_of(byte))`. -/
def maxBytes (T : NType) : Nat := (Bits.getBitnum T.level T.max + 7) / 8

/-- ubigint.hpp:88-108 `ubigint::is_safe_convert_to<T>`; `size_in_byte()` is the number of digits times their size, and
`all_bit_is_one(max_byte_size)` (bit.hpp:247-249) is false of every `max_byte_size`. -/
def ubigSafe (w : Nat) (T : NType) (l : Ubig.Digits) : Bool :=
  if decide (T.min ≠ 0) && decide (ubigCmp w T l T.min = .lt) then false
  else if l.length * (w / 8) > maxBytes T then false
  else if ubigCmp w T l T.max = .gt then false
  else true

/-- ubigint.hpp:110-122 `ubigint::convert_to<T>`; for a signed `T` every step is reduced in the same way, which leaves the
remainder as a signed number. -/
def ubigTo (w : Nat) (T : NType) (l : Ubig.Digits) : Int := castTo T (Ubig.convertTo w T.bits l)

/-! ### bigint -/

/-- bigint.hpp:39-41: sign and magnitude. -/
structure SBig where
  neg : Bool
  num : Ubig.Digits
deriving DecidableEq, Repr

/-- bigint.hpp:72-80 `operator<=>(T&&)` of a `bigint` with a native integer; `abs` (math.hpp:193-201) of the least number
of a type not narrower than `int` is undefined. -/
def bigCmp (w : Nat) (T : NType) (a : SBig) (v : Int) : Option Ordering :=
  let vneg := T.signed && decide (v < 0)
  if a.neg != vneg then some (if a.neg then .lt else .gt)
  else
    (if T.signed then Numeral.absSigned T.bits v else some v.toNat).map fun m =>
      let tmp := Ubig.cmpNative w T.bits a.num m
      if a.neg then tmp.swap else tmp

/-- bigint.hpp:83-98 `bigint::is_safe_convert_to<T>`: the least value is compared only if it is not zero. -/
def bigSafe (w : Nat) (T : NType) (a : SBig) : Option Bool := do
  let below ← if T.min ≠ 0 then (bigCmp w T a T.min).map (· == .lt) else some false
  if below then some false
  else (bigCmp w T a T.max).map fun o => if o == .gt then false else true

/-- math.hpp:67-82 `copy_as_negative` of a number of the unsigned type `to_unsigned_t<T>`, then conversion to `T`:
`T{}-x` is computed without sign when `T` is not narrower than `int`, as `int` when it is. -/
def negTo (T : NType) (x : Nat) (negative : Bool) : Int :=
  if negative then
    if 32 ≤ T.bits then castTo T (((2 ^ T.bits - x) % 2 ^ T.bits : Nat) : Int) else castTo T (0 - (x : Int))
  else castTo T x

/-- bigint.hpp:100-105 `bigint::convert_to<T>`. -/
def bigTo (w : Nat) (T : NType) (a : SBig) : Int :=
  if T.signed then negTo T (Ubig.convertTo w T.bits a.num) a.neg else Ubig.convertTo w T.bits a.num

/-! ### ubigfloat and bigfloat -/

open Bigfloat (UFrac Frac)

/-- ubigfloat.hpp:75-94 `ubigfloat::is_safe_convert_to<T>` for an integer type. -/
def ufracSafe (T : NType) (a : UFrac) : Bool :=
  if decide (T.min ≠ 0) && decide (a.cmpInt T.min = .lt) then false
  else if a.cmpInt T.max = .gt then false
  else if Bigint.umod a.num a.den ≠ 0 then false
  else true

/-- ubigfloat.hpp:95-99 `ubigfloat::convert_to<T>` for an integer type: `trunc`, then the conversion of `ubigint`. -/
def ufracTo (T : NType) (a : UFrac) : Int := castTo T ((Bigint.udiv a.num a.den : Nat) : Int)

/-- bigfloat.hpp:60-63 `bigfloat::is_safe_convert_to<T>`. -/
def fracSafe (T : NType) (a : Frac) : Bool := ufracSafe T.toUnsigned a.num

/-- bigfloat.hpp:64-77 `bigfloat::convert_to<T>` for an integer type. -/
def fracTo (T : NType) (a : Frac) : Int :=
  if T.signed then negTo T (ufracTo T.toUnsigned a.num).toNat a.neg else ufracTo T a.num

end ELC.Convert
