import Verif.Float.Model
import Verif.Numeral.Model
/-!
Model of the text of native floating point numbers, `F/numerical_representation/to_string/_body.hpp:251-426`, and of
`integer_log`, `F/base_defs/math.hpp:277-296`.

Simplifications: finite numbers that are not negative; `ptrdiff_t` is wide enough for the exponents met; the number of
digits computed with `log` at 298 is the exact one (the least `L` with `2^width-1 ≤ radix^L`).
-/
namespace ELC.FloatText

open ELC.Float
open ELC.Numeral (Rep stripZeros toStringNative toStringWithExp buildExpr denominatorComplement powFrac)
open ELC.Bigfloat (UFrac)

/-! ### integer_log -/

/-- math.hpp:286-291: the loop of one level, `fuel` rounds. -/
def logLoop (a lv num : Nat) : Nat → Nat → Nat → Option (Nat × Nat)
  | 0, _, _ => none
  | fuel + 1, tester, aret =>
    if a < tester * lv then some (aret, tester) else logLoop a lv num fuel (tester * lv) (aret + num)

/-- math.hpp:279-292 `integer_log_impl` on big integers; the result and the final `tester`.  `none`: no end. -/
def logImpl (a : Nat) : Nat → Nat → Nat → Nat → Option (Nat × Nat)
  | 0, _, _, _ => none
  | fuel + 1, tester, lv, num =>
    if lv * lv < a then
      match logImpl a fuel tester (lv * lv) (num * 2) with
      | none => none
      | some (r, t) => logLoop a lv num (a + 1) t r
    else logLoop a lv num (a + 1) tester 0

/-- math.hpp:277-296 `integer_log` of a big integer. -/
def integerLog (a b : Nat) : Option Nat := (logImpl a (a + 1) 1 b 1).map Prod.fst

/-- math.hpp:279-292 on an unsigned type of `t` bits: products are taken modulo `2^t`. -/
def logLoopNative (t a lv num : Nat) : Nat → Nat → Nat → Option (Nat × Nat)
  | 0, _, _ => none
  | fuel + 1, tester, aret =>
    let tmp := tester * lv % 2 ^ t
    if a < tmp then some (aret, tester) else logLoopNative t a lv num fuel tmp (aret + num)

/-- The same, with the recursion. -/
def logImplNative (t a : Nat) (rounds : Nat) : Nat → Nat → Nat → Nat → Option (Nat × Nat)
  | 0, _, _, _ => none
  | fuel + 1, tester, lv, num =>
    let next := lv * lv % 2 ^ t
    if next < a then
      match logImplNative t a rounds fuel tester next (num * 2) with
      | none => none
      | some (r, t') => logLoopNative t a lv num rounds t' r
    else logLoopNative t a lv num rounds tester 0

/-! ### rounding -/

/-- The least `L` with `n ≤ r^L`. -/
def ceilLog (r n : Nat) : Nat → Nat → Nat
  | 0, L => L
  | fuel + 1, L => if n ≤ r ^ L then L else ceilLog r n fuel (L + 1)

/-- _body.hpp:298. -/
def digitLimit (I : Info) (r : Nat) : Nat := ceilLog r (2 ^ I.width - 1) I.width 0

/-- _body.hpp:299-304: digits beyond the limit are dropped. -/
def dropDigits (L r : Nat) (num : Nat) (exp : Int) : Option (Nat × Int) :=
  (integerLog num r).map fun n =>
    let diff : Int := n - L
    if 0 < diff then (num / r ^ diff.toNat, exp + diff) else (num, exp)

/-- _body.hpp:310, 318-320: one digit less, rounded. -/
def roundDigit (r num : Nat) : Nat := if r / 2 ≤ num % r then num / r + 1 else num / r

/-- _body.hpp:323-324: until the number is at most `lim`; `fuel` rounds. -/
def roundLoop (r lim : Nat) : Nat → Nat → Int → Option (Nat × Int)
  | 0, _, _ => none
  | fuel + 1, num, exp => if lim < num then roundLoop r lim fuel (roundDigit r num) (exp + 1) else some (num, exp)

/-- _body.hpp:326-341: digits are rounded away as long as the number still converts to `check`.  `pows` is
`exp_pows`, `bnum`, `bexp` are `num_backup`, `exp_backup`. -/
def shortenLoop (I : Info) (r check : Nat) : Nat → Nat → Int → UFrac → Nat → Int → Outcome (Nat × Int)
  | 0, _, _, _, _, _ => .spins
  | fuel + 1, num, exp, pows, bnum, bexp =>
    let z := num % r = 0
    let num1 := if z then num / r else num
    let exp1 := if z then exp + 1 else exp
    let pows1 := if z then pows.mul (UFrac.ofNat r) else pows
    let bnum1 := if z then num1 else bnum
    let bexp1 := if z then exp1 else bexp
    let num2 := roundDigit r num1
    let exp2 := exp1 + 1
    let pows2 := pows1.mul (UFrac.ofNat r)
    match toFloat I ((UFrac.ofNat num2).mul pows2) with
    | .done c => if c = check then shortenLoop I r check fuel num2 exp2 pows2 num2 exp2 else .done (bnum1, bexp1)
    | .undefined => .undefined
    | .spins => .spins

/-- _body.hpp:282-343 `apply_info_threshold` for a native type. -/
def applyThreshold (I : Info) (r num : Nat) (exp : Int) (check : Nat) : Outcome (Nat × Int) :=
  let base := I.base * 2
  match dropDigits (digitLimit I r) r num exp with
  | none => .spins
  | some (num, exp) =>
    match roundLoop r (base * r) (num + 1) num exp with
    | none => .spins
    | some (num, exp) =>
      if base < num then shortenLoop I r check (num + 3) num exp (powFrac r exp) num exp else .done (num, exp)

/-! ### text -/

/-- _body.hpp:395-402: factors of half the radix become exponents of the radix. -/
def halfLoop (half : Nat) : Nat → Nat → Nat → Nat × Nat × Nat
  | 0, num, new => (num, 0, new)
  | exp + 1, num, new => if num % half = 0 then halfLoop half exp (num / half) (new + 1) else (num, exp + 1, new)

/-- _body.hpp:379-408: the digits in an even radix, before rounding. -/
def evenDigits (r n : Nat) (e : Int) : Nat × Int :=
  if e < 0 then (n * (r / 2) ^ e.natAbs, e)
  else if 0 < e then
    let h := halfLoop (r / 2) e.toNat n 0
    (h.1 <<< h.2.1, h.2.2)
  else (n, e)

/-- `to_string_with_exp` of a native integer: _body.hpp:128-148. -/
def nativeWithExp (R : Rep) (num : Nat) (exp : Int) : Option (List Nat) :=
  (stripZeros R num exp).bind fun ne => (toStringNative R ne.1).bind fun s => buildExpr R s ne.2

/-- A text, if there is one. -/
def text : Option (List Nat) → Outcome (List Nat)
  | none => .spins
  | some s => .done s

/-- _body.hpp:376-426: the digits of the number. -/
def digitsText (I : Info) (R : Rep) (w v : Nat) : Outcome (List Nat) :=
  let n := getPrecision I v
  let e := getExponent I v
  if R.radix % 2 = 0 then
    let d := evenDigits R.radix n e
    match applyThreshold I R.radix d.1 d.2 v with
    | .done (num, exp) => text (toStringWithExp R w num exp)
    | .undefined => .undefined
    | .spins => .spins
  else if e < 0 then
    text ((nativeWithExp R n 0).bind fun a => (Numeral.toStringBig R w (1 <<< e.natAbs)).map fun b => a ++ [R.fracSep] ++ b)
  else text (toStringWithExp R w (n <<< e.toNat) 0)

/-- _body.hpp:353-426 `to_string_base` of a native floating point number. -/
def toText (I : Info) (R : Rep) (w v : Nat) : Outcome (List Nat) :=
  match toDivide I v with
  | .undefined => .undefined
  | .spins => .spins
  | .done none => digitsText I R w v
  | .done (some (m, d)) =>
    if d ≠ 1 then
      match denominatorComplement R d 0 with
      | none => .spins
      | some (d', c, _) =>
        if d' ≠ 1 then
          let a : Outcome (Option (List Nat)) :=
            if m ≤ ofNat I (2 ^ 64 - 1) then
              match toSize I m with
              | .done n => .done (nativeWithExp R n 0)
              | .undefined => .undefined
              | .spins => .spins
            else .done (toStringWithExp R w (toBig I m) 0)
          match a with
          | .done a => text (a.bind fun a => (toStringNative R (d' * c % 2 ^ 64)).map fun b => a ++ [R.fracSep] ++ b)
          | .undefined => .undefined
          | .spins => .spins
        else digitsText I R w v
    else if m ≤ ofNat I (2 ^ 64 - 1) then
      match toSize I m with
      | .done n => text (nativeWithExp R n 0)
      | .undefined => .undefined
      | .spins => .spins
    else digitsText I R w v

end ELC.FloatText
