import Verif.Float.Model
/-!
Random floating point numbers: `between_0_and_1_exclusive`, `between_0_and_1_inclusive` and `between` of `F/random/defs.hpp`.

A number that is not negative is its bytes, as in `Float.Model`, whose operations of the processor (rounding to nearest, ties to
even) are used.  The draws of the generator are given: `g n` is the draw number `n`, of as many bits as the type has.
Simplifications: `div_num` (263, 274) is exactly a power of two; in the program it is `exp(n*log(2))`, computed by the compiler
(math.hpp:302-305), see `exclusive_divisor`.  Infinity is the bytes `Float.infinity`; `none` is NaN, or that the draws have not
come to an end.  The sign of zero is left out.
-/
namespace ELC.Uniform
open ELC.Float (Info units one nearest infinity ofNat fdiv fmul)

/-- random/defs.hpp:263, 274 `div_num`. -/
def divNum (I : Info) (n : Nat) : Nat := ofNat I (2 ^ n)

/-- random/defs.hpp:260-265 `between_0_and_1_exclusive` for the draw `rnd` and the divisor `div`. -/
def exclusiveBy (I : Info) (div rnd : Nat) : Nat := fdiv I (ofNat I rnd) div

/-- random/defs.hpp:260-265 `between_0_and_1_exclusive` for the draw `rnd`. -/
def exclusive01 (I : Info) (rnd : Nat) : Nat := exclusiveBy I (divNum I I.width) rnd

/-- random/defs.hpp:267-276 `between_0_and_1_inclusive`: at most `fuel` draws from number `pos` on; the number of the next draw is
returned too. -/
def inclusive01 (I : Info) (g : Nat → Nat) : Nat → Nat → Option (Nat × Nat)
  | 0, _ => none
  | fuel + 1, pos =>
    let rnd := g pos
    if rnd % 2 = 1 then
      if rnd / 2 = 0 then some (ofNat I 1, pos + 1) else inclusive01 I g fuel (pos + 1)
    else some (exclusiveBy I (divNum I (I.width - 1)) (rnd / 2), pos + 1)

/-- A number with its sign. -/
structure Signed where
  neg : Bool
  mag : Nat
deriving DecidableEq

/-- Units it is worth. -/
def Signed.units (I : Info) (x : Signed) : Int := if x.neg then -(Float.units I.bit x.mag : Int) else Float.units I.bit x.mag

/-- Rounding of so many units. -/
def round (I : Info) (x : Int) : Signed := ⟨decide (x < 0), nearest I x.natAbs 1⟩

/-- random/defs.hpp:314 `_diff(amax-amin)`; it is not negative. -/
def diff (I : Info) (lo hi : Signed) : Nat := nearest I (hi.units I - lo.units I).natAbs 1

/-- random/defs.hpp:318, 321: the product `u*_diff`. -/
def scaled (I : Info) (u d : Nat) : Option Nat :=
  if infinity I ≤ d then (if u = 0 then none else some (infinity I)) else some (fmul I u d)

/-- random/defs.hpp:318, 321: the sum `_min+prod`. -/
def shifted (I : Info) (lo : Signed) (prod : Nat) : Signed :=
  if infinity I ≤ prod then ⟨false, infinity I⟩ else round I (lo.units I + Float.units I.bit prod)

/-- random/defs.hpp:317-332 `between(amin,amax)`, `exclusive` and `inclusive`, for `u` from [0,1) or [0,1]. -/
def between (I : Info) (amin amax : Signed) (u : Nat) : Option Signed :=
  let lo := if amax.units I < amin.units I then amax else amin
  let hi := if amax.units I < amin.units I then amin else amax
  (scaled I u (diff I lo hi)).map (shifted I lo)

end ELC.Uniform
