import Mathlib.Data.Rat.Floor
import Mathlib.Tactic.Ring
import Verif.Native.Model
/-!
Characters at fractional positions: `s[x]` of a string with a floating point number `x`, read and assigned
(`floating_arec_t_impl` of `F/string/defs.hpp` and `linear_interpolation` of `F/base_defs/math.hpp`).

A string is the list of its characters, numbers of the native type `T`; reading or writing behind its end is undefined, which is
`none`.  Floating point numbers are rational numbers: `rnd` is the rounding of a product, a sum or a difference.
Simplifications: the distances of `x` from its two neighbours are exact (they are in every binary format, for strings of fewer than
2^52 characters); NaN and infinities are left out.
-/
namespace ELC.Interp
open ELC.Convert (NType)

/-- defs.hpp:420 `_index_x1=static_cast<size_t>(index)`, towards zero; undefined for numbers that are not in `size_t`. -/
def lower (x : ℚ) : Option Nat := if x ≤ -1 ∨ 2 ^ 64 ≤ x then none else some ⌊x⌋.toNat

/-- math.hpp:605-614 `get_k`: the difference (divided by 1.0), see `Native.sub`. -/
def slope (T : NType) (y1 y2 : Nat) : Option Int := Native.sub T y2 y1

/-- math.hpp:615-618 `get_result`. -/
def result (rnd : ℚ → ℚ) (y1 : Nat) (k : Int) (dx : ℚ) : ℚ := rnd (y1 + rnd (k * dx))

/-- math.hpp:619-622 `get_reverse_result`. -/
def reverse (rnd : ℚ → ℚ) (k : Int) (dx y : ℚ) : ℚ := rnd (y - rnd (k * dx))

/-- defs.hpp:424-431 `operator floating_arec_result_type`. -/
def read (rnd : ℚ → ℚ) (T : NType) (s : List Nat) (x : ℚ) : Option ℚ := do
  let x1 ← lower x
  let y1 ← s[x1]?
  let y2 ← s[x1 + 1]?
  let k ← slope T y1 y2
  return result rnd y1 k (x - x1)

/-- defs.hpp:438, 439: the conversion of a floating point number to a character, towards zero; undefined if the result is not a
number of the type. -/
def toChar (T : NType) (v : ℚ) : Option Nat := if v ≤ -1 ∨ 2 ^ T.bits ≤ v then none else some ⌊v⌋.toNat

/-- defs.hpp:432-443 `operator=`. -/
def write (rnd : ℚ → ℚ) (T : NType) (s : List Nat) (x a : ℚ) : Option (List Nat) := do
  let x1 ← lower x
  let y1 ← s[x1]?
  let y2 ← s[x1 + 1]?
  let k ← slope T y1 y2
  let z1 ← toChar T (reverse rnd k (x - x1) a)
  let z2 ← toChar T (reverse rnd k (x - (x1 + 1 : Nat)) a)
  return (s.set x1 z1).set (x1 + 1) z2

end ELC.Interp
