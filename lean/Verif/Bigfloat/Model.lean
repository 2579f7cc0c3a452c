import Verif.Arith.Model
/-!
Model of the big fractions, `F/bignum/bignum/ubigfloat.hpp` (unsigned) and
`F/bignum/bignum/bigfloat.hpp` (signed).

Simplification: numerator and denominator are natural numbers with exact arithmetic and saturating
subtraction (see the `Ubig` modules for what `ubigint` delivers); operands given as integers are integers
of unlimited size.  Conversions from and to native floating point are not modelled.
-/
namespace ELC.Bigfloat

/-- ubigfloat.hpp:32-33: the two members. -/
structure UFrac where
  num : Nat
  den : Nat
deriving DecidableEq, Repr

namespace UFrac

/-- ubigfloat.hpp:42-43 `ubigfloat(T&&)` for an unsigned integer. -/
def ofNat (n : Nat) : UFrac := ⟨n, 1⟩

/-- ubigfloat.hpp:272-276 `operator+`. -/
def add (a b : UFrac) : UFrac := ⟨a.num * b.den + b.num * a.den, a.den * b.den⟩
/-- ubigfloat.hpp:290-294 `operator-`; `ubigint` subtraction stops at zero. -/
def sub (a b : UFrac) : UFrac := ⟨a.num * b.den - b.num * a.den, a.den * b.den⟩
/-- ubigfloat.hpp:308-312 `operator*`. -/
def mul (a b : UFrac) : UFrac := ⟨a.num * b.num, a.den * b.den⟩
/-- ubigfloat.hpp:319-323 `operator/`. -/
def div (a b : UFrac) : UFrac := ⟨a.num * b.den, a.den * b.num⟩

/-- ubigfloat.hpp:277-281 `operator+` with an unsigned integer. -/
def addNat (a : UFrac) (n : Nat) : UFrac := ⟨a.num + n * a.den, a.den⟩
/-- ubigfloat.hpp:295-299 `operator-` with an unsigned integer. -/
def subNat (a : UFrac) (n : Nat) : UFrac := ⟨a.num - n * a.den, a.den⟩
/-- ubigfloat.hpp:282-288 `operator+` with a signed integer. -/
def addInt (a : UFrac) (z : Int) : UFrac := if z < 0 then subNat a z.natAbs else addNat a z.natAbs
/-- ubigfloat.hpp:300-306 `operator-` with a signed integer. -/
def subInt (a : UFrac) (z : Int) : UFrac := if z < 0 then addNat a z.natAbs else subNat a z.natAbs
/-- ubigfloat.hpp:313-317 `operator*` with an unsigned integer. -/
def mulNat (a : UFrac) (n : Nat) : UFrac := ⟨a.num * n, a.den⟩
/-- ubigfloat.hpp:324-328 `operator/` with an unsigned integer. -/
def divNat (a : UFrac) (n : Nat) : UFrac := ⟨a.num, a.den * n⟩

/-- What a reference to the right operand shows after the left operand became `a'`: the left operand
itself when both are the same object. -/
def seen (same : Bool) (a' b : UFrac) : UFrac := if same then a' else b

/-- ubigfloat.hpp:330-334 `operator+=`, statement by statement. -/
def addAssign (same : Bool) (a b : UFrac) : UFrac :=
  let a1 : UFrac := ⟨a.num * b.den + b.num * a.den, a.den⟩
  ⟨a1.num, a1.den * (seen same a1 b).den⟩
/-- ubigfloat.hpp:348-352 `operator-=`, statement by statement. -/
def subAssign (same : Bool) (a b : UFrac) : UFrac :=
  let a1 : UFrac := ⟨a.num * b.den - b.num * a.den, a.den⟩
  ⟨a1.num, a1.den * (seen same a1 b).den⟩
/-- ubigfloat.hpp:366-370 `operator*=`, statement by statement. -/
def mulAssign (same : Bool) (a b : UFrac) : UFrac :=
  let a1 : UFrac := ⟨a.num * b.num, a.den⟩
  ⟨a1.num, a1.den * (seen same a1 b).den⟩
/-- ubigfloat.hpp:377-381 `operator/=`, statement by statement. -/
def divAssign (same : Bool) (a b : UFrac) : UFrac :=
  let a1 : UFrac := ⟨a.num * b.den, a.den⟩
  ⟨a1.num, a1.den * (seen same a1 b).num⟩

/-- ubigfloat.hpp:335-339 `operator+=` with an unsigned integer. -/
def addAssignNat (a : UFrac) (n : Nat) : UFrac := { a with num := a.num + n * a.den }
/-- ubigfloat.hpp:353-357 `operator-=` with an unsigned integer. -/
def subAssignNat (a : UFrac) (n : Nat) : UFrac := { a with num := a.num - n * a.den }
/-- ubigfloat.hpp:340-346 `operator+=` with a signed integer. -/
def addAssignInt (a : UFrac) (z : Int) : UFrac := if z < 0 then subAssignNat a z.natAbs else addAssignNat a z.natAbs
/-- ubigfloat.hpp:358-364 `operator-=` with a signed integer. -/
def subAssignInt (a : UFrac) (z : Int) : UFrac := if z < 0 then addAssignNat a z.natAbs else subAssignNat a z.natAbs
/-- ubigfloat.hpp:371-375 `operator*=` with an unsigned integer. -/
def mulAssignNat (a : UFrac) (n : Nat) : UFrac := { a with num := a.num * n }
/-- ubigfloat.hpp:382-386 `operator/=` with an unsigned integer. -/
def divAssignNat (a : UFrac) (n : Nat) : UFrac := { a with den := a.den * n }

/-- ubigfloat.hpp:388-390 `operator==`. -/
def eq (a b : UFrac) : Bool := a.num * b.den == b.num * a.den
/-- ubigfloat.hpp:398-400 `operator<=>`. -/
def cmp (a b : UFrac) : Ordering := compare (a.num * b.den) (b.num * a.den)
/-- ubigfloat.hpp:391-396 `operator==` with an integer. -/
def eqInt (a : UFrac) (z : Int) : Bool := if z < 0 then false else a.num == z.natAbs * a.den
/-- ubigfloat.hpp:401-406 `operator<=>` with an integer. -/
def cmpInt (a : UFrac) (z : Int) : Ordering := if z < 0 then .gt else compare a.num (z.natAbs * a.den)

/-- ubigfloat.hpp:202-207 `reciprocal`. -/
def reciprocal (a : UFrac) : UFrac := ⟨a.den, a.num⟩
/-- ubigfloat.hpp:237-242 `trunc`. -/
def trunc (a : UFrac) : Nat := a.num / a.den
/-- ubigfloat.hpp:250-257 `split`; 259-263 `trunc_with_sub` does the same in place. -/
def split (a : UFrac) : Nat × UFrac := (a.num / a.den, ⟨a.num % a.den, a.den⟩)
/-- ubigfloat.hpp:462-466 `simplify`, with `gcd` as it is below 256 digits (math.hpp:1001-1013); `ubigint` division by
zero gives zero. -/
def simplify (a : UFrac) : UFrac :=
  let g := (Arith.binaryGcd Arith.big a.num a.den).getD 0
  ⟨a.num / g, a.den / g⟩
/-- ubigfloat.hpp:454-456 `operator!`. -/
def isZero (a : UFrac) : Bool := a.num == 0
/-- ubigfloat.hpp:500-502 `hash`: `h` is the hash of a `ubigint`, in `bits`-bit arithmetic. -/
def hash (bits : Nat) (h : Nat → Nat) (a : UFrac) : Nat := (h a.num * 13 + h a.den) % 2 ^ bits

end UFrac

/-- bigfloat.hpp:40-41: the two members. -/
structure Frac where
  neg : Bool
  num : UFrac
deriving DecidableEq, Repr

namespace Frac
open UFrac (eq cmp)

/-- bigfloat.hpp:49-50 `bigfloat(ubigfloat)`. -/
def ofUFrac (u : UFrac) : Frac := ⟨false, u⟩
/-- bigfloat.hpp:51, 57 `bigfloat(bigint)`, `bigfloat(T&&)` for an integer. -/
def ofInt (z : Int) : Frac := ⟨decide (z < 0), UFrac.ofNat z.natAbs⟩

/-- bigfloat.hpp:97-99 `operator-()`. -/
def neg' (a : Frac) : Frac := ⟨!a.neg, a.num⟩

/-- bigfloat.hpp:187-197 `operator+`. -/
def add (a b : Frac) : Frac :=
  if a.neg == b.neg then ⟨a.neg, a.num.add b.num⟩
  else if cmp a.num b.num = .gt then ⟨a.neg, a.num.sub b.num⟩
  else ⟨!a.neg, b.num.sub a.num⟩

/-- bigfloat.hpp:200-210 `operator-`. -/
def sub (a b : Frac) : Frac :=
  if a.neg != b.neg then ⟨a.neg, a.num.add b.num⟩
  else if cmp a.num b.num = .gt then ⟨a.neg, a.num.sub b.num⟩
  else ⟨!a.neg, b.num.sub a.num⟩

/-- bigfloat.hpp:213-216 `operator*`. -/
def mul (a b : Frac) : Frac := ⟨a.neg != b.neg, a.num.mul b.num⟩
/-- bigfloat.hpp:219-222 `operator/`. -/
def div (a b : Frac) : Frac := ⟨a.neg != b.neg, a.num.div b.num⟩

/-- bigfloat.hpp:230-247 `operator+=` for distinct objects. -/
def addAssign (a b : Frac) : Frac :=
  if a.neg == b.neg then ⟨a.neg, UFrac.addAssign false a.num b.num⟩
  else if cmp a.num b.num = .gt then ⟨a.neg, UFrac.subAssign false a.num b.num⟩
  else ⟨!a.neg, UFrac.subAssign false b.num a.num⟩
/-- bigfloat.hpp:225-228 `operator+=` for an unsigned operand. -/
def addAssignUnsigned (a : Frac) (b : UFrac) : Frac := ⟨a.neg, UFrac.addAssign false a.num b⟩
/-- bigfloat.hpp:250-267 `operator-=` for distinct objects. -/
def subAssign (a b : Frac) : Frac :=
  if a.neg == b.neg then
    if cmp a.num b.num = .gt then ⟨a.neg, UFrac.subAssign false a.num b.num⟩
    else ⟨!a.neg, UFrac.subAssign false b.num a.num⟩
  else ⟨a.neg, UFrac.addAssign false a.num b.num⟩
/-- bigfloat.hpp:275-279 `operator*=` for distinct objects. -/
def mulAssign (a b : Frac) : Frac := ⟨a.neg != b.neg, UFrac.mulAssign false a.num b.num⟩
/-- bigfloat.hpp:270-273 `operator*=` for an unsigned operand. -/
def mulAssignUnsigned (a : Frac) (b : UFrac) : Frac := ⟨a.neg, UFrac.mulAssign false a.num b⟩
/-- bigfloat.hpp:287-291 `operator/=` for distinct objects. -/
def divAssign (a b : Frac) : Frac := ⟨a.neg != b.neg, UFrac.divAssign false a.num b.num⟩
/-- bigfloat.hpp:282-285 `operator/=` for an unsigned operand. -/
def divAssignUnsigned (a : Frac) (b : UFrac) : Frac := ⟨a.neg, UFrac.divAssign false a.num b⟩

/-- bigfloat.hpp:294-297 `operator==`. -/
def eq (a b : Frac) : Bool := if a.neg != b.neg then false else a.num.eq b.num
/-- bigfloat.hpp:300-308 `operator<=>`. -/
def cmp (a b : Frac) : Ordering :=
  if a.neg != b.neg then (if a.neg then .lt else .gt)
  else
    let result := a.num.cmp b.num
    if a.neg then result.swap else result

/-- bigfloat.hpp:155-157 `reciprocal`. -/
def reciprocal (a : Frac) : Frac := ⟨a.neg, a.num.reciprocal⟩
/-- bigfloat.hpp:163-165 `trunc`, the `bigint` as an integer. -/
def trunc (a : Frac) : Int := if a.neg then -(a.num.trunc : Int) else a.num.trunc
/-- bigfloat.hpp:167-175 `split`. -/
def split (a : Frac) : Int × Frac := (a.trunc, ⟨a.neg, a.num.split.2⟩)
/-- bigfloat.hpp:335-337 `simplify`. -/
def simplify (a : Frac) : Frac := ⟨a.neg, a.num.simplify⟩

end Frac
end ELC.Bigfloat
