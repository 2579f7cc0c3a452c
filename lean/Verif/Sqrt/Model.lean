import Verif.Float.Model
/-!
Model of the square roots of native floating point numbers, `F/base_defs/math.hpp:363-472`, at run time and at compile time.

A number is the natural number in its bytes, as in `Verif.Float.Model`; only numbers that are not negative are modelled.  `ubigfloat`
and `bigfloat` go other ways (C112).  The loops get fuel; `none` is a loop that has not ended.
-/
namespace ELC.Sqrt

open ELC.Float

/-- math.hpp:437-447 `quick_sqrt` at run time, for a type of `I.width` bits. -/
def quickSqrt (I : Info) (v : Nat) : Nat := ((v >>> 1) + (I.diff.toNat <<< (I.bit - 1)) % 2 ^ I.width) % 2 ^ I.width

/-- math.hpp:418-422 `sqrt_iteration`: `(num+v/num)/2u`. -/
def sqrtStep (I : Info) (v num : Nat) : Nat := fdiv I (fadd I num (fdiv I v num)) (ofNat I 2)

/-- math.hpp:423-431 `sqrt_to_new_ε` with the last change in `saver`: the loop. -/
def sqrtLoop (I : Info) (v eps : Nat) : Nat → Nat → Nat → Option Nat
  | 0, _, _ => none
  | fuel + 1, num, saver =>
    if saver > eps then
      let next := sqrtStep I v num
      sqrtLoop I v eps fuel next (fdist I next num)
    else some num

/-- math.hpp:432-436, 457-468 `sqrt(v)` at run time; the result `none` is NaN. -/
def sqrt (I : Info) (fuel v : Nat) : Option (Option Nat) :=
  if v ≥ infinity I then some none
  else (sqrtLoop I v (epsilon I) fuel (quickSqrt I v) (fmul I (epsilon I) (ofNat I 2))).map some

/-- math.hpp:448, 457-468 `sqrt(v)` at compile time, where the first guess is `v/2u`.  A guess of zero ends compilation: `some none`
stands for it too. -/
def sqrtConst (I : Info) (fuel v : Nat) : Option (Option Nat) :=
  if v ≥ infinity I then some none
  else if fdiv I v (ofNat I 2) = 0 then some none
  else (sqrtLoop I v (epsilon I) fuel (fdiv I v (ofNat I 2)) (fmul I (epsilon I) (ofNat I 2))).map some

/-- math.hpp:469-472, 480 `safe_arithmetic_cast<T>(sqrt(a))` for an integer, which goes through `double`: the integer part of the root. -/
def intRoot (I : Info) (fuel a : Nat) : Option Nat :=
  match sqrt I fuel (ofNat I a) with
  | some (some r) => some (units I.bit r / one I)
  | _ => none

/-- float_info.hpp:105 `quick_invsqrt_magic_number` of `float`. -/
def magic32 : Nat := 0xBE6EB50C
/-- float_info.hpp:135 `quick_invsqrt_magic_number` of `double`. -/
def magic64 : Nat := 0xBFCDD6A18F6A6F52
/-- float_info.hpp:166 `quick_invsqrt_magic_number` of `float128_t`. -/
def magic128 : Nat := 0xBFFCDD90BCFBC61B561FEEE8A556CED2

/-- math.hpp:380-391 `quick_invsqrt` at run time. -/
def quickInvsqrt (I : Info) (magic v : Nat) : Nat := ((magic + 2 ^ I.width - v) % 2 ^ I.width) >>> 1

/-- math.hpp:366-370 `invsqrt_iteration`: `num*(3u-v*num*num)/2u`.  `none`: the difference is negative, which is not followed. -/
def invStep (I : Info) (v num : Nat) : Option Nat :=
  let x := fmul I (fmul I v num) num
  if x ≤ ofNat I 3 then some (fdiv I (fmul I num (fdist I (ofNat I 3) x)) (ofNat I 2)) else none

/-- math.hpp:371-379 `invsqrt_to_new_ε`: the loop.  `some none`: a negative number came up. -/
def invLoop (I : Info) (v eps : Nat) : Nat → Nat → Nat → Option (Option Nat)
  | 0, _, _ => none
  | fuel + 1, num, saver =>
    if saver > eps then
      match invStep I v num with
      | none => some none
      | some next => invLoop I v eps fuel next (fdist I next num)
    else some (some num)

/-- math.hpp:392-398 `invsqrt(v, ε, ε_saver)` at run time; `some none` is NaN too.  The overloads with one and two parameters
(math.hpp:399-414) call `invsqrt_to_new_ε` with three arguments, which nothing defines: a program using them does not compile. -/
def invsqrt (I : Info) (magic fuel v eps saver : Nat) : Option (Option Nat) :=
  if v ≥ infinity I then some none
  else invLoop I v eps fuel (quickInvsqrt I magic v) saver

end ELC.Sqrt
