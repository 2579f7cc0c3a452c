import Verif.Bigfloat.Model
/-!
Model of the conversions between numbers and text:
`F/numerical_representation/representations/comn.hpp` (comn.hpp below) and
`F/numerical_representation/to_string/_body.hpp` (_body.hpp below).

Simplifications: a text is the list of its `char32_t` values, and the string operations used here (`push_front`,
`+`, `pad_left`, `substr`, `insert`, `find_first_of(char)`, `find_last_of(char)`) are list operations; big integers
are natural numbers with exact arithmetic (see the `Ubig` modules for what `ubigint` delivers) whose size is the
number of their digits of `w` bits; exponents and text sizes do not overflow `ptrdiff_t`.  NaN, infinity and the
native floating point types are not modelled.
-/
namespace ELC.Numeral

open ELC.Bigfloat (UFrac Frac)

/-- comn.hpp:34-79 `base_numerical_representation_t`: the virtual functions.  `primes` is
`get_unique_prime_factorization_table_of_radix`. -/
structure Rep where
  radix : Nat
  getChar : Nat → Nat
  getIndex : Nat → Nat
  isValid : Nat → Bool
  fracSign : Nat
  posSign : Nat
  negSign : Nat
  fracSep : Nat
  expSep : Nat
  repStart : Nat
  repEnd : Nat
  primes : List Nat

/-- comn.hpp:85-97: the default signs. -/
def defaultSigns (radix : Nat) (getChar getIndex : Nat → Nat) (isValid : Nat → Bool) (expSep : Nat)
    (primes : List Nat) : Rep :=
  { radix, getChar, getIndex, isValid, fracSign := 0x2E, posSign := 0x2B, negSign := 0x2D,
    fracSep := 0x2F, expSep, repStart := 0x5B, repEnd := 0x5D, primes }

/-- comn.hpp:194-208 `constexpr_continuous_numerical_representation_t<zero,radix>`. -/
def continuous (zero radix : Nat) (primes : List Nat) : Rep :=
  defaultSigns radix (fun i => (zero + i) % 2 ^ 32) (fun c => (c + 2 ^ 64 - zero) % 2 ^ 64)
    (fun c => decide (zero ≤ c) && decide (c < zero + radix)) 0x65 primes

/-- comn.hpp:265-279 `constexpr_str_numerical_representation_t` and 373-381 `comn_numerical_representation_t`:
digits looked up in a table.  `getChar` is only ever called with an index below the radix. -/
def table (t : List Nat) (expSep : Nat) (primes : List Nat) : Rep :=
  defaultSigns t.length (fun i => t.getD i 0) (fun c => (t.idxOf? c).getD (2 ^ 64 - 1))
    (fun c => (t.idxOf? c).isSome) expSep primes

/-- comn.hpp:215-218. -/
def trinary : Rep := continuous 0x30 3 [3]
def binary : Rep := continuous 0x30 2 [2]
def octal : Rep := continuous 0x30 8 [2]
def decimal : Rep := continuous 0x30 10 [2, 5]
/-- comn.hpp:219-229. -/
def valanlottish : Rep :=
  { continuous 0xA000 1165 [5, 233] with
    fracSign := 0xA49B, posSign := 0xA49C, negSign := 0xA49D, fracSep := 0xA4BC, expSep := 0xA4AB,
    repStart := 0xA4B8, repEnd := 0xA4B9 }
/-- comn.hpp:288-289. -/
def hexadecimal : Rep :=
  table [0x30, 0x31, 0x32, 0x33, 0x34, 0x35, 0x36, 0x37, 0x38, 0x39, 0x61, 0x62, 0x63, 0x64, 0x65, 0x66] 0x56 [2]
def hexadecimalUpper : Rep :=
  table [0x30, 0x31, 0x32, 0x33, 0x34, 0x35, 0x36, 0x37, 0x38, 0x39, 0x41, 0x42, 0x43, 0x44, 0x45, 0x46] 0x76 [2]
/-- comn.hpp:307-317 `comn_numerical_representation_t` with its default arguments. -/
def comnDefault : Rep :=
  { table [0x30, 0x31, 0x32, 0x33, 0x34, 0x35, 0x36, 0x37, 0x38, 0x39] 0x65 [2, 5] with fracSep := 0x2E }

/-- _body.hpp:33-65 `convert_state_t`. -/
structure State where
  error : Bool := false
  invalidChar : Bool := false
  fractional : Bool := false
  decimal : Bool := false
  exponent : Bool := false
deriving DecidableEq, Repr

/-! ### integers to text -/

/-- _body.hpp:178-184, the loop of `to_string_base` for a native unsigned number.  `none`: division by zero, or a
loop without end. -/
def toStringLoop (R : Rep) (n : Nat) (aret : List Nat) : Option (List Nat) :=
  if R.radix = 0 then none
  else
    let aret' := R.getChar (n % R.radix) :: aret
    let q := n / R.radix
    if q = 0 then some aret'
    else if _h : q < n then toStringLoop R q aret'
    else none
termination_by n

/-- _body.hpp:124-126, 150-188 `to_string` of a native unsigned number. -/
def toStringNative (R : Rep) (n : Nat) : Option (List Nat) := toStringLoop R n []

/-- F/base_defs/math.hpp:193-201 `abs` for a signed type of `t` bits: `-v` is computed in the promoted type, at
least `int` with 32 bits, and must not overflow there. -/
def absSigned (t : Nat) (v : Int) : Option Nat :=
  if v < 0 then (if 32 ≤ t ∧ v = -(2 ^ (t - 1) : Nat) then none else some ((-v).toNat % 2 ^ t))
  else some v.toNat

/-- _body.hpp:110-121 `to_string` of a native signed number. -/
def toStringSigned (R : Rep) (t : Nat) (v : Int) : Option (List Nat) :=
  (absSigned t v).bind fun u =>
    (toStringNative R u).map fun s => if v < 0 then R.negSign :: s else s

/-- `fast_size_method()`, F/bignum/bignum/ubigint.hpp:1234-1236: number of `w`-bit digits of a stored number. -/
def bigSize (w n : Nat) : Nat := if n = 0 then 0 else Nat.log2 n / w + 1

/-- _body.hpp:164-170: the split point.  `none`: a loop without end. -/
def splitLoop (w num base len : Nat) : Option (Nat × Nat) :=
  if bigSize w base * 3 < bigSize w num then
    if _h : base < base * base ∧ base < num then splitLoop w num (base * base) (len * 2) else none
  else some (base, len)
termination_by num - base
decreasing_by omega

/-- F/string/defs.hpp:956-960 `pad_left`. -/
def padLeft (size : Nat) (ch : Nat) (s : List Nat) : List Nat :=
  if size ≤ s.length then s else List.replicate (size - s.length) ch ++ s

/-- _body.hpp:150-188 `to_string_base` of a big integer stored in `w`-bit digits. -/
def toStringBig (R : Rep) (w num : Nat) : Option (List Nat) :=
  if num < 2 ^ 64 then toStringNative R num
  else
    match splitLoop w num R.radix 1 with
    | none => none
    | some (base, len) =>
      if _h : num / base < num ∧ num % base < num then
        (toStringBig R w (num / base)).bind fun high =>
          (toStringBig R w (num % base)).map fun low => high ++ padLeft len (R.getChar 0) low
      else none
termination_by num
decreasing_by all_goals omega

/-! ### text to integers -/

/-- _body.hpp:648-661: a native unsigned type of `t` bits. -/
def fromLoop (R : Rep) (t : Nat) : Nat → List Nat → State → Nat × State
  | aret, [], st => (aret, st)
  | aret, c :: cs, st =>
    let a := aret * R.radix % 2 ^ t
    if R.isValid c then fromLoop R t ((a + R.getIndex c) % 2 ^ t) cs st
    else (0, { st with error := true, invalidChar := true })

/-- _body.hpp:616-665, 668-670 `from_string_get` of a native unsigned type of `t` bits. -/
def fromNative (R : Rep) (t : Nat) (s : List Nat) (st : State) : Nat × State := fromLoop R t 0 s st

/-- _body.hpp:674-682 `from_string_get` of a single character. -/
def fromChar (R : Rep) (t : Nat) (c : Nat) (st : State) : Nat × State :=
  if R.isValid c then (R.getIndex c % 2 ^ t, st)
  else (0, { st with error := true, invalidChar := true })

/-- The signed number of `t` bits with the bits of `u`. -/
def toSigned (t u : Nat) : Int :=
  if u % 2 ^ t < 2 ^ (t - 1) then ((u % 2 ^ t : Nat) : Int) else ((u % 2 ^ t : Nat) : Int) - (2 ^ t : Nat)

/-- _body.hpp:694-706 `from_string_get` of a native signed type of `t` bits, with F/base_defs/math.hpp:68-81
`copy_as_negative`.  `none`: `str[0]` of an empty text. -/
def fromSigned (R : Rep) (t : Nat) (s : List Nat) (st : State) : Option (Int × State) :=
  match s with
  | [] => none
  | c :: cs =>
    if c = R.negSign then
      let r := fromNative R t cs st
      some (toSigned t ((2 ^ t - r.1 % 2 ^ t) % 2 ^ t), r.2)
    else if c = R.posSign then
      let r := fromNative R t cs st
      some (toSigned t r.1, r.2)
    else
      let r := fromNative R t (c :: cs) st
      some (toSigned t r.1, r.2)

/-- _body.hpp:625-631: the split point of a text. -/
def splitLenLoop (size base len : Nat) : Nat × Nat :=
  if _h : 0 < len ∧ len * 3 < size then splitLenLoop size (base * base) (len * 2) else (base, len)
termination_by size - len
decreasing_by omega

/-- _body.hpp:616-645 `from_string_get` of a big integer; `thr` is `partition_method_threshold`.  `none`: a
recursion without end. -/
def fromBig (R : Rep) (thr : Nat) (s : List Nat) (st : State) : Option (Nat × State) :=
  if thr < s.length then
    if _h : 0 < (splitLenLoop s.length R.radix 1).2 ∧ (splitLenLoop s.length R.radix 1).2 < s.length then
      let bl := splitLenLoop s.length R.radix 1
      match fromBig R thr (s.take (s.length - bl.2)) st with
      | none => none
      | some (high, st1) =>
        if st1.error then some (0, st1)
        else
          match fromBig R thr (s.drop (s.length - bl.2)) st1 with
          | none => none
          | some (low, st2) => if st2.error then some (0, st2) else some (high * bl.1 + low, st2)
    else none
  else some (fromNative R 64 s st)
termination_by s.length
decreasing_by
  · simp only [List.length_take]; omega
  · simp only [List.length_drop]; omega

/-- _body.hpp:694-706 `from_string_get<bigint>`. -/
def fromBigSigned (R : Rep) (thr : Nat) (s : List Nat) (st : State) : Option (Int × State) :=
  match s with
  | [] => none
  | c :: cs =>
    if c = R.negSign then (fromBig R thr cs st).map fun r => (-(r.1 : Int), r.2)
    else if c = R.posSign then (fromBig R thr cs st).map fun r => ((r.1 : Int), r.2)
    else (fromBig R thr (c :: cs) st).map fun r => ((r.1 : Int), r.2)

/-! ### fractions to text -/

/-- comn.hpp:69-75: the loop for one prime `i` of the radix; state: denominator, factor, exponent.  `none`: division
by zero or a loop without end. -/
def complementLoop (i ic den aret : Nat) (exp : Int) : Option (Nat × Nat × Int) :=
  if i = 0 then none
  else if den / i ≠ 0 ∧ den % i = 0 then
    if _h : den / i < den then complementLoop i ic (den / i) (aret * ic) (exp - 1) else none
  else some (den, aret, exp)
termination_by den

/-- comn.hpp:67-76: over the table. -/
def complementAll (radix : Nat) : List Nat → Nat → Nat → Int → Option (Nat × Nat × Int)
  | [], den, aret, exp => some (den, aret, exp)
  | i :: is, den, aret, exp =>
    if i = 0 then none
    else
      match complementLoop i (radix / i) den aret exp with
      | none => none
      | some (den', aret', exp') => complementAll radix is den' aret' exp'

/-- comn.hpp:63-78 `get_denominator_complement` on a big integer: the new denominator, the returned factor and the
new exponent. -/
def denominatorComplement (R : Rep) (den : Nat) (exp : Int) : Option (Nat × Nat × Int) :=
  complementAll R.radix R.primes den 1 exp

/-- _body.hpp:110-121 `to_string` of an exponent of type `ptrdiff_t`. -/
def toStringExp (R : Rep) (exp : Int) : Option (List Nat) :=
  (toStringNative R exp.natAbs).map fun s => if exp < 0 then R.negSign :: s else s

/-- _body.hpp:95-106 `build_expression_str` with an unsigned exponent. -/
def buildExprNat (R : Rep) (base : List Nat) (exp : Nat) : Option (List Nat) :=
  if exp = 0 then some base
  else
    (toStringNative R exp).map fun expStr =>
      if expStr.length + 1 < exp then base ++ [R.expSep] ++ expStr
      else base ++ List.replicate exp (R.getChar 0)

/-- _body.hpp:74-94 `build_expression_str`. -/
def buildExpr (R : Rep) (base : List Nat) (exp : Int) : Option (List Nat) :=
  if exp < 0 then
    (toStringExp R exp).map fun expStr =>
      let needZero := (-exp + 1 - base.length).toNat
      if expStr.length < needZero then base ++ [R.expSep] ++ expStr
      else
        let b := List.replicate needZero (R.getChar 0) ++ base
        let dotPos := ((b.length : Int) + exp).toNat
        b.take dotPos ++ [R.fracSign] ++ b.drop dotPos
  else if 0 < exp then buildExprNat R base exp.toNat
  else some base

/-- _body.hpp:140-146: trailing zeros become an exponent.  `none`: division by zero or a loop without end. -/
def stripZeros (R : Rep) (num : Nat) (exp : Int) : Option (Nat × Int) :=
  if num = 0 then some (num, exp)
  else if R.radix = 0 then none
  else if num % R.radix ≠ 0 then some (num, exp)
  else if _h : num / R.radix < num then stripZeros R (num / R.radix) (exp + 1) else none
termination_by num

/-- _body.hpp:138-148 `to_string_and_add_exp`, followed by `build_expression_str`: 128-132, 345-352. -/
def toStringWithExp (R : Rep) (w num : Nat) (exp : Int) : Option (List Nat) :=
  (stripZeros R num exp).bind fun ne => (toStringBig R w ne.1).bind fun s => buildExpr R s ne.2

/-- _body.hpp:443-448: powers of the radix leave the denominator. -/
def radixLoop (R : Rep) (den : Nat) (exp : Int) : Option (Nat × Int) :=
  if R.radix = 0 then none
  else if den / R.radix ≠ 0 ∧ den % R.radix = 0 then
    if _h : den / R.radix < den then radixLoop R (den / R.radix) (exp - 1) else none
  else some (den, exp)
termination_by den

/-- _body.hpp:428-463 `to_string` of an unsigned big fraction. -/
def toStringFrac (R : Rep) (w : Nat) (x : UFrac) : Option (List Nat) :=
  let y := x.simplify
  if y.num = 0 then some [R.getChar 0]
  else if y.den = 1 then toStringWithExp R w y.num 0
  else
    (radixLoop R y.den 0).bind fun de =>
      (denominatorComplement R de.1 de.2).bind fun dce =>
        if dce.1 ≠ 1 then
          (toStringBig R w y.num).bind fun n =>
            (toStringBig R w y.den).map fun d => n ++ [R.fracSep] ++ d
        else toStringWithExp R w (y.num * dce.2.1) dce.2.2

/-- _body.hpp:251-262 `to_string` of a signed big fraction. -/
def toStringFracSigned (R : Rep) (w : Nat) (x : Frac) : Option (List Nat) :=
  (toStringFrac R w x.num).map fun s => if x.neg then R.negSign :: s else s

/-- _body.hpp:479-490: the loop of `to_string_fractional_base`.  `rems` is `numerator_array`, `digits` what was
appended; the result is the digits and, when a remainder comes back, its place in the array. -/
def fractionalLoop (R : Rep) (den : Nat) : Nat → Nat → List Nat → List Nat → Option (List Nat × Option Nat)
  | 0, _, _, _ => none
  | fuel + 1, num, rems, digits =>
    if num = 0 then some (digits, none)
    else
      let q := num * R.radix / den
      let r := num * R.radix % den
      match rems.idxOf? r with
      | some i => some (digits, some i)
      | none => fractionalLoop R den fuel r (rems ++ [r]) (digits ++ [R.getChar q])

/-- _body.hpp:465-492 `to_string_fractional_base`; a remainder is below the denominator, so `den + 1` rounds are
enough. -/
def toFractional (R : Rep) (w : Nat) (x : UFrac) : Option (List Nat) :=
  if x.num = 0 then some [R.getChar 0]
  else if x.den = 0 then none
  else
    (toStringBig R w (x.num / x.den)).bind fun int =>
      (fractionalLoop R x.den (x.den + 2) (x.num % x.den) [] []).map fun dr =>
        match dr.2 with
        | none => int ++ [R.fracSign] ++ dr.1
        | some i => int ++ [R.fracSign] ++ dr.1.take i ++ [R.repStart] ++ dr.1.drop i ++ [R.repEnd]

/-! ### text to fractions -/

/-- `find_first_of(char)` with the two `substr` calls around it: the text before and after the first `c`. -/
def splitFirst (c : Nat) : List Nat → Option (List Nat × List Nat)
  | [] => none
  | x :: xs => if x = c then some ([], xs) else (splitFirst c xs).map fun p => (x :: p.1, p.2)

/-- `find_last_of(char)` with the two `substr` calls around it. -/
def splitLast (c : Nat) (s : List Nat) : Option (List Nat × List Nat) :=
  (splitFirst c s.reverse).map fun p => (p.2.reverse, p.1.reverse)

/-- ubigfloat.hpp:519-529 `pow(radix, exp)`. -/
def powFrac (radix : Nat) (exp : Int) : UFrac :=
  if exp < 0 then (UFrac.ofNat 1).div (UFrac.ofNat (radix ^ exp.natAbs)) else UFrac.ofNat (radix ^ exp.natAbs)

/-- _body.hpp:528-548, the part of `from_string_get_base<ubigfloat>` for a decimal or an integer. -/
def fromDecimal (R : Rep) (thr : Nat) (s : List Nat) (st : State) : Option (UFrac × State) :=
  match splitFirst R.fracSign s with
  | some (ints, fracs) =>
    (fromBig R thr ints { st with decimal := true }).bind fun i =>
      if i.2.error then some (UFrac.ofNat 0, i.2)
      else
        (fromBig R thr fracs i.2).map fun f =>
          if f.2.error then (UFrac.ofNat 0, f.2)
          else
            let saclen := R.radix ^ fracs.length
            (⟨i.1 * saclen + f.1, saclen⟩, f.2)
  | none => (fromBig R thr s st).map fun r => (UFrac.ofNat r.1, r.2)

/-- _body.hpp:512-548.  The calls on the two parts are recursive in the code; the numerator holds no separator and
no exponent, the denominator may hold further separators (`fuel` bounds their number). -/
def fromFraction (R : Rep) (thr : Nat) : Nat → List Nat → State → Option (UFrac × State)
  | 0, _, _ => none
  | fuel + 1, s, st =>
    match splitFirst R.fracSep s with
    | some (nums, dens) =>
      (fromDecimal R thr nums { st with fractional := true }).bind fun n =>
        if n.2.error then some (UFrac.ofNat 0, n.2)
        else
          (fromFraction R thr fuel dens n.2).map fun d =>
            if d.2.error then (UFrac.ofNat 0, d.2) else (n.1.div d.1, d.2)
    | none => fromDecimal R thr s st

/-- _body.hpp:496-549 `from_string_get_base<ubigfloat>`; `fuel` bounds the number of exponents. -/
def fromExponent (R : Rep) (thr : Nat) : Nat → List Nat → State → Option (UFrac × State)
  | 0, _, _ => none
  | fuel + 1, s, st =>
    match splitLast R.expSep s with
    | some (base, exps) =>
      (fromBigSigned R thr exps { st with exponent := true }).bind fun e =>
        if e.2.error then some (UFrac.ofNat 0, e.2)
        else
          (fromExponent R thr fuel base e.2).map fun b =>
            if b.2.error then (UFrac.ofNat 0, b.2) else (b.1.mul (powFrac R.radix e.1), b.2)
    | none => fromFraction R thr (s.length + 1) s st

/-- _body.hpp:552-560, 610-612 `from_string_get<ubigfloat>` for a text other than NaN and infinity. -/
def fromFrac (R : Rep) (thr : Nat) (s : List Nat) (st : State) : Option (UFrac × State) :=
  fromExponent R thr (s.length + 1) s st

/-- _body.hpp:694-706 `from_string_get<bigfloat>`. -/
def fromFracSigned (R : Rep) (thr : Nat) (s : List Nat) (st : State) : Option (Frac × State) :=
  match s with
  | [] => none
  | c :: cs =>
    if c = R.negSign then (fromFrac R thr cs st).map fun r => (⟨true, r.1⟩, r.2)
    else if c = R.posSign then (fromFrac R thr cs st).map fun r => (⟨false, r.1⟩, r.2)
    else (fromFrac R thr (c :: cs) st).map fun r => (⟨false, r.1⟩, r.2)

end ELC.Numeral
