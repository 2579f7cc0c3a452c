import Verif.Series.Model
/-!
`tan`, `cot`, `sec` and `csc` of big fractions, F/base_defs/math.hpp:1164-1194: quotients of what `sin` and `cos` give.

Simplifications: those of the area `Series`.  The outer `Option` is that of `Series` (`none`: not over yet); an inner
`none` is a fraction with the denominator zero, which is no number.
-/
namespace ELC.Trig
open ELC.Series

/-- The quotient of two fractions (C15); `none`: the divisor is zero. -/
def quot (a b : ℚ) : Option ℚ := if b = 0 then none else some (a / b)

/-- math.hpp:1164-1167 `tan(num,ε)`; `pi` is what `π_with_ε(ε)` gives. -/
def tan (pi num ε : ℚ) (n : ℕ) : Option (Option ℚ) :=
  (sin num ε n).bind fun s => (cos pi num ε n).map fun c => quot s c

/-- math.hpp:1173-1176 `cot(num,ε)`. -/
def cot (pi num ε : ℚ) (n : ℕ) : Option (Option ℚ) :=
  (cos pi num ε n).bind fun c => (sin num ε n).map fun s => quot c s

/-- math.hpp:1182-1185 `sec(num,ε)`: `reciprocal` of the cosine. -/
def sec (pi num ε : ℚ) (n : ℕ) : Option (Option ℚ) := (cos pi num ε n).map fun c => quot 1 c

/-- math.hpp:1191-1194 `csc(num,ε)`: `reciprocal` of the sine. -/
def csc (num ε : ℚ) (n : ℕ) : Option (Option ℚ) := (sin num ε n).map fun s => quot 1 s

end ELC.Trig
