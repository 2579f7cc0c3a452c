import Verif.Bits.Model
import Verif.Bigfloat.Model
/-!
Model of the decomposition and construction of native floating point numbers,
`S/basic_environment/float_info.hpp` and `S/basic_environment/after_math.hpp:150-317`, and of the conversions between
native floating point numbers and the big numbers, `F/bignum/bignum/ubigint.hpp:80-87` and
`F/bignum/bignum/ubigfloat.hpp:44-156`.

Simplifications: a floating point number is the natural number in its bytes (`float_data_union`, after_math.hpp:151-167);
`float_exponent_t` and `ptrdiff_t` are wide enough for every exponent met (they are 64 bits wide with glibc, where
`int_fast16_t` is), so exponents are integers; big integers are natural numbers with exact arithmetic (the `Ubig` modules
say what `ubigint` delivers).  Shifting a word by its width or more is undefined.  The operations of the processor
(`/`, `*`, `+`, `-`, `modf`) are what IEEE 754 says: the exact result rounded to nearest, ties to even (`nearest`).
-/
namespace ELC.Float

open ELC.Bigfloat (UFrac)

/-- The constants and types of one of the `*_float_info` structures; a word of `data_type`, `precision_type` has
`Bits.bitsOf k` bits and the two exponent types `expBits`. -/
structure Info where
  k : Nat
  mask : Nat
  base : Nat
  bit : Nat
  diff : Int
  emin : Int
  emax : Int
  expBits : Nat
  expMask : Nat

/-- float_info.hpp:47-76 `float16_float_info`. -/
def float16 : Info := ⟨1, 0x07FF, 0x0800, 11, 15, -14, 15, 8, 0x7FFF⟩
/-- float_info.hpp:77-106 `float32_float_info`. -/
def float32 : Info := ⟨2, 0x007FFFFF, 0x800000, 23, 127, -126, 127, 8, 0x7FFFFFFF⟩
/-- float_info.hpp:107-136 `float64_float_info`. -/
def float64 : Info := ⟨3, 0x000FFFFFFFFFFFFF, 0x10000000000000, 52, 1023, -1022, 1023, 16, 0x7FFFFFFFFFFFFFFF⟩
/-- float_info.hpp:138-167 `float128_float_info`. -/
def float128 : Info := ⟨4, 0x0000FFFFFFFFFFFFFFFFFFFFFFFFFFFF, 0x10000000000000000000000000000, 112, 16383, -16382,
  16383, 16, 0x7FFFFFFFFFFFFFFFFFFFFFFFFFFFFFFF⟩
/-- float_info.hpp:169-198 `bfloat16_float_info`. -/
def bfloat16 : Info := ⟨1, 0x00FF, 0x0100, 8, 127, -126, 127, 8, 0x7FFF⟩

/-- `bitnum_of` the word. -/
def Info.width (I : Info) : Nat := Bits.bitsOf I.k

/-- What a call does. -/
inductive Outcome (α : Type) where
  /-- Undefined behaviour. -/
  | undefined
  /-- The loop did not end. -/
  | spins
  | done (a : α)
deriving DecidableEq, Repr

/-- Conversion to a signed integer of `b` bits. -/
def toSigned (b : Nat) (z : Int) : Int := (z + 2 ^ (b - 1)) % 2 ^ b - 2 ^ (b - 1)

/-- after_math.hpp:171-176 `get_native_precision`. -/
def nativePrecision (I : Info) (d : Nat) : Nat := d &&& I.mask

/-- after_math.hpp:188-194 `base_get_exponent`. -/
def baseExponent (I : Info) (d : Nat) : Nat := ((d &&& I.expMask) >>> I.bit) % 2 ^ I.expBits

/-- after_math.hpp:197-202 `get_native_exponent`. -/
def nativeExponent (I : Info) (d : Nat) : Int :=
  let t := baseExponent I d
  if t = 0 then toSigned I.expBits I.emin else toSigned I.expBits (toSigned I.expBits t - I.diff)

/-- after_math.hpp:205-209 `get_base_num`. -/
def baseNum (I : Info) (d : Nat) : Nat := if baseExponent I d ≠ 0 then I.base else 0

/-- after_math.hpp:212-214 `get_precision`. -/
def getPrecision (I : Info) (d : Nat) : Nat := (nativePrecision I d + baseNum I d) % 2 ^ I.width

/-- after_math.hpp:217-220 `get_exponent`. -/
def getExponent (I : Info) (d : Nat) : Int := nativeExponent I d - I.bit

/-- after_math.hpp:238-279 `make_float`. -/
def makeFloat (I : Info) (n : Nat) (e : Int) : Outcome Nat :=
  let need : Int := I.width - (I.bit + 1)
  let shift : Int := Bits.countlZero I.k n - need
  let n := if 0 < shift then (n <<< shift.toNat) % 2 ^ I.width else if shift < 0 then n >>> (-shift).toNat else n
  let e := e - shift + I.bit
  let small := e < I.emin
  let diff := I.emin - e
  if small ∧ (I.width : Int) ≤ diff then .undefined
  else
    let n := if small then n >>> diff.toNat else n
    let e := if small then e + diff else e
    if small ∧ n = 0 then .done 0
    else if e > I.emax then .done 0
    else if n >>> I.bit = 0 then .done n
    else
      let x := ((e + I.diff) % 2 ^ I.expBits).toNat
      .done ((n - I.base) ||| ((x <<< I.bit) % 2 ^ I.width))

/-! ### The operations of the processor -/

/-- The number of units in the place of the smallest positive number that the number with bytes `d` (not negative) is
worth, in a format with `p` bits of fraction. -/
def units (p d : Nat) : Nat := if d / 2 ^ p = 0 then d % 2 ^ p else (2 ^ p + d % 2 ^ p) * 2 ^ (d / 2 ^ p - 1)

/-- The bytes of the greatest number worth at most `x` units. -/
def trunc (p x : Nat) : Nat := (Nat.log2 x - p) * 2 ^ p + x / 2 ^ (Nat.log2 x - p)

/-- The bytes of infinity. -/
def infinity (I : Info) : Nat := (2 * (I.emax.toNat + 1) - 1) * 2 ^ I.bit

/-- IEEE 754 rounding to nearest, ties to even, of `x/y` units. -/
def nearest (I : Info) (x y : Nat) : Nat :=
  let r := trunc I.bit (x / y)
  let mid := y * (units I.bit r + units I.bit (r + 1))
  let r := if 2 * x < mid then r else if mid < 2 * x then r + 1 else if r % 2 = 0 then r else r + 1
  min r (infinity I)

/-- Units in one: `1 = 2^K` units. -/
def one (I : Info) : Nat := 2 ^ (I.bit + (-I.emin).toNat)

/-- `T / T` for numbers that are not negative, the divisor not zero. -/
def fdiv (I : Info) (a b : Nat) : Nat := nearest I (units I.bit a * one I) (units I.bit b)
/-- `T * T`. -/
def fmul (I : Info) (a b : Nat) : Nat := nearest I (units I.bit a * units I.bit b) (one I)
/-- `T + T`. -/
def fadd (I : Info) (a b : Nat) : Nat := nearest I (units I.bit a + units I.bit b) 1
/-- `abs(a-b)`. -/
def fdist (I : Info) (a b : Nat) : Nat :=
  nearest I (units I.bit a - units I.bit b + (units I.bit b - units I.bit a)) 1
/-- `T(n)` for an unsigned integer. -/
def ofNat (I : Info) (n : Nat) : Nat := nearest I (n * one I) 1
/-- `to_size_t`: the integer part; what does not fit in 64 bits is undefined. -/
def toSize (I : Info) (a : Nat) : Outcome Nat :=
  if a ≥ infinity I ∨ 2 ^ 64 ≤ units I.bit a / one I then .undefined else .done (units I.bit a / one I)
/-- `modf`: the bytes of the integer part. -/
def intPart (I : Info) (a : Nat) : Nat := trunc I.bit (units I.bit a / one I * one I)
/-- `modf`: the bytes of the fraction part. -/
def fracPart (I : Info) (a : Nat) : Nat := trunc I.bit (units I.bit a % one I)
/-- `arithmetic_type_info_prover<T>::ε()`: the distance from one to the next number. -/
def epsilon (I : Info) : Nat := ofNat I 1 - I.bit * 2 ^ I.bit
/-- math.hpp:203-209 `is_close` for a floating point type. -/
def isClose (I : Info) (a b : Nat) : Bool := fdist I a b ≤ epsilon I

/-! ### Conversions -/

/-- after_math.hpp:301-316: the loop of `to_divide` with `numerator = n`, `fuel` rounds left; `ip`, `fp` are
`integer_part`, `fraction_part`.  Not negative numbers only.  `gcd` of two `size_t` (line 305) is taken as what comes of it
on processors, the greatest common divisor (`Arith.binary_gcd_processor_correct`); the language leaves its last shift
undefined (`Arith.binary_gcd_wide_refuted`). -/
def divideLoop (I : Info) (maxD ip fp : Nat) : Nat → Nat → Outcome (Option (Nat × Nat))
  | 0, _ => .done none
  | fuel + 1, n =>
    match toSize I (fdiv I (ofNat I n) fp) with
    | .done d =>
      if d ≤ maxD ∧ isClose I (fdiv I (ofNat I n) (ofNat I d)) fp = true ∧ Nat.gcd n d = 1 then
        let m := fadd I (fmul I ip (ofNat I d)) (ofNat I n)
        if fdiv I m (ofNat I d) = fp then .done (some (m, d)) else divideLoop I maxD ip fp fuel (n + 1)
      else divideLoop I maxD ip fp fuel (n + 1)
    | _ => .undefined

/-- after_math.hpp:282-317 `to_divide` for a finite number that is not negative: numerator (bytes) and denominator. -/
def toDivide (I : Info) (v : Nat) : Outcome (Option (Nat × Nat)) :=
  let ip := intPart I v
  let fp := fracPart I v
  if fp = 0 then .done (some (ip, 1)) else divideLoop I (2 ^ 17) ip fp (2 ^ 7 - 1) 1

/-- ubigint.hpp:1073-1103 `operator<<=` with a signed count: to the right when it is negative. -/
def shiftBig (n : Nat) (e : Int) : Nat := if e < 0 then n >>> e.natAbs else n <<< e.natAbs

/-- ubigint.hpp:80-87 `ubigint(T)` for a finite number that is not negative. -/
def toBig (I : Info) (v : Nat) : Nat :=
  let i := intPart I v
  shiftBig (getPrecision I i) (getExponent I i)

/-- ubigfloat.hpp:44-73 `ubigfloat(T)` for a finite number that is not negative. -/
def toFraction (I : Info) (v : Nat) : Outcome UFrac :=
  let n := getPrecision I v
  let e := getExponent I v
  let exact : UFrac := UFrac.simplify (if e > 0 then ⟨n <<< e.natAbs, 1⟩ else if e < 0 then ⟨n, 1 <<< e.natAbs⟩ else ⟨n, 1⟩)
  if e < 0 then
    match toDivide I v with
    | .done (some (m, d)) => .done ⟨toBig I m, d⟩
    | .done none => .done exact
    | .undefined => .undefined
    | .spins => .spins
  else .done exact

/-- ubigint.hpp:1193-1207 `countr_zero`, on values; zero has no digits. -/
def ctz (n : Nat) : Nat := if h : n ≠ 0 ∧ n % 2 = 0 then ctz (n / 2) + 1 else 0
termination_by n
decreasing_by omega

/-- ubigint.hpp:1216-1220 `get_bitnum`, on values. -/
def bitnum (n : Nat) : Nat := if n = 0 then 0 else Nat.log2 n + 1

/-- ubigfloat.hpp:123-128: the division loop, `fuel` rounds; `w` is `precision_base_bitnum`. -/
def quotLoop (w : Nat) (d : Nat) : Nat → Nat → Int → Option (Nat × Int)
  | 0, _, _ => none
  | fuel + 1, n, e =>
    if n % d ≠ 0 ∧ (n / d) >>> w = 0 then quotLoop w d fuel (n <<< w) (e - w) else some (n / d, e)

/-- ubigfloat.hpp:95-156 `convert_to<T>` for a native floating point type; `Inf` for a zero denominator. -/
def toFloat (I : Info) (a : UFrac) : Outcome Nat :=
  if a.den = 0 then .done (infinity I)
  else
    let w := I.width
    let n := a.num >>> ctz a.num
    let d := a.den >>> ctz a.den
    let e : Int := (ctz a.num : Int) - ctz a.den
    match quotLoop w d (d + 2) n e with
    | none => .spins
    | some (q, e) =>
      let n := q >>> ctz q
      let e := e + ctz q
      let diff : Int := (bitnum n : Int) - w
      let n' := if 0 < diff then (n >>> diff.toNat) + 1 else n
      let e' := if 0 < diff then e + diff else e
      makeFloat I (n' % 2 ^ w) e'

end ELC.Float
