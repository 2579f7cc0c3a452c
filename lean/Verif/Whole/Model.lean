import Verif.Float.Model
/-!
Model of rounding native floating point numbers to whole numbers at compile time, `F/base_defs/math.hpp:327-362`.  At run time the functions of
the standard library are called.

A number is its sign and the bytes of its magnitude, as in `Verif.Float.Model`.  `none`: the program does not compile, since the cast to an
integer is undefined.
-/
namespace ELC.Whole

open ELC.Float

/-- A floating point number: sign and magnitude. -/
structure Num where
  neg : Bool
  mag : Nat
deriving DecidableEq

/-- `v<0`: minus zero is not below zero. -/
def Num.below (v : Num) : Bool := v.neg && v.mag != 0

/-- math.hpp:117-121 `to_uintmax_t` of a magnitude: a cast, defined below `2^64`. -/
def toUint (I : Info) (m : Nat) : Option Nat :=
  if m ≥ infinity I ∨ 2 ^ 64 ≤ units I.bit m / one I then none else some (units I.bit m / one I)

/-- math.hpp:327-337 `trunc` at compile time: `static_cast<RT>((intmax_t)v)`; the cast is defined from `-2^63` to below `2^63`. -/
def trunc (I : Info) (v : Num) : Option Num :=
  let n := units I.bit v.mag / one I
  if v.mag ≥ infinity I ∨ (v.neg = true ∧ 2 ^ 63 < n) ∨ (v.neg = false ∧ 2 ^ 63 ≤ n) then none
  else some ⟨v.neg && n != 0, ofNat I n⟩

/-- math.hpp:338-350 `ceil` at compile time. -/
def ceil (I : Info) (v : Num) : Option Num :=
  if v.below then (toUint I v.mag).map fun n => ⟨true, ofNat I n⟩
  else (toUint I v.mag).map fun n =>
    let y := ofNat I n
    if isClose I v.mag y then ⟨false, y⟩ else ⟨false, fadd I y (ofNat I 1)⟩

/-- `y-T{1}` for a number `y` that is not negative. -/
def minusOne (I : Info) (y : Nat) : Num := ⟨y < ofNat I 1, fdist I y (ofNat I 1)⟩

/-- math.hpp:351-363 `floor` at compile time. -/
def floor (I : Info) (v : Num) : Option Num :=
  if v.below then (toUint I (fadd I v.mag (ofNat I 1))).map fun n => ⟨true, ofNat I n⟩
  else (toUint I v.mag).map fun n =>
    let y := ofNat I n
    if isClose I v.mag y then ⟨false, y⟩ else minusOne I y

end ELC.Whole
