import Mathlib.Algebra.Order.Field.Rat
import Mathlib.Data.Rat.Floor
import Mathlib.Algebra.Order.Group.Unbundled.Abs

/-!
The functions of `F/base_defs/math.hpp` that compute by iteration, for the big fractions: `sqrt`, `exp`, `log`,
`sin`, `cos`, `arctan` and its relatives, `π_with_ε`; and `trunc`, `ceil`, `floor`, `reverse_sign`.

Simplifications: a big fraction is its value, a rational number (that its operations are the exact ones
is C15, C16); counters of type `size_t` are natural numbers.  A loop gets the number of turns it may take; `none` says that it
is not over by then, so a call that never ends is one that is `none` for every number.
-/
namespace ELC.Series

/-! ### Signs (math.hpp:54-92) -/

/-- math.hpp:55-65 `is_negative`, bigfloat.hpp:123-125. -/
def isNegative (x : ℚ) : Bool := decide (x < 0)

/-- bigfloat.hpp:127-139 `copy_as_negative` of a fraction: the magnitude with the given sign. -/
def copyAsNegative (x : ℚ) (negative : Bool) : ℚ := if negative then -|x| else |x|

/-- math.hpp:67-82 `copy_as_negative` of an integer (a signed native one without overflow, or a `bigint`):
`(T)negative?T{}-x:x`. -/
def copyAsNegativeInt (x : ℤ) (negative : Bool) : ℤ := if negative then 0 - x else x

/-- math.hpp:84-87 `reverse_sign` of a fraction. -/
def reverseSign (x : ℚ) : ℚ := copyAsNegative x (!isNegative x)

/-- math.hpp:84-87 `reverse_sign` of an integer. -/
def reverseSignInt (x : ℤ) : ℤ := copyAsNegativeInt x (!decide (x < 0))

/-- math.hpp:89-92 `reverse_sign_if`. -/
def reverseSignIf (c : Bool) (x : ℚ) : ℚ := if c then reverseSign x else x

/-! ### Rounding at compile time (math.hpp:326-362) -/

/-- math.hpp:203-208 `is_close` of a native floating point type with the given `ε`. -/
def isClose (ε a b : ℚ) : Bool := decide (|a - b| ≤ ε)

/-- math.hpp:99-121 `to_uintmax_t` of a number that is not negative: its fraction is cut; not defined if the
result does not fit. -/
def toUintmax (x : ℚ) : Option ℚ := if x < 2 ^ 64 then some (x.floor : ℚ) else none

/-- math.hpp:328-335 `trunc` at compile time, through `intmax_t`. -/
def truncConst (v : ℚ) : Option ℚ :=
  if -(2 ^ 63 : ℚ) - 1 < v ∧ v < 2 ^ 63 then some (if v < 0 then -((-v).floor : ℚ) else (v.floor : ℚ)) else none

/-- math.hpp:339-348 `ceil` at compile time.  The subtraction in `is_close` and `y+1` are exact for the numbers that get
there, `y` being the integer part. -/
def ceilConst (ε v : ℚ) : Option ℚ :=
  if v < 0 then do return -(← toUintmax (-v))
  else do
    let y ← toUintmax v
    return if isClose ε v y then y else y + 1

/-- math.hpp:352-361 `floor` at compile time; the sum `-v+1` is taken to be exact. -/
def floorConst (ε v : ℚ) : Option ℚ :=
  if v < 0 then do return -(← toUintmax (-v + 1))
  else do
    let y ← toUintmax v
    return if isClose ε v y then y else y - 1

/-! ### Square root (math.hpp:415-464) -/

/-- math.hpp:418-422 `sqrt_iteration`. -/
def sqrtIteration (num v : ℚ) : ℚ := (num + v / num) / 2

/-- math.hpp:423-431 `sqrt_to_new_ε`: the root and what is left in `ε_saver`. -/
def sqrtToNewEps (v ε : ℚ) : ℕ → ℚ → ℚ → Option (ℚ × ℚ)
  | 0, _, _ => none
  | n + 1, num, saver =>
    if saver > ε then
      let next := sqrtIteration num v
      sqrtToNewEps v ε n next |next - num|
    else some (num, saver)

/-- math.hpp:432-436, 457-463 `sqrt(v,ε)`.  `guess` is what `quick_sqrt(v)` gives (a positive number got from the bits of
a native one). -/
def sqrt (guess v ε : ℚ) (n : ℕ) : Option ℚ := (sqrtToNewEps v ε n guess (ε * 2)).map (·.1)

/-! ### Exponential and logarithm (math.hpp:226-275) -/

/-- math.hpp:235-242 `exp_impl`; `is_close` of fractions is equality (math.hpp:203-208). -/
def expImpl (x : ℚ) : ℕ → ℚ → ℚ → ℕ → ℚ → Option ℚ
  | 0, _, _, _, _ => none
  | m + 1, sum, n, i, t =>
    let e := sum + t / n
    if sum = e then some sum else expImpl x m e (n * i) (i + 1) (t * x)

/-- math.hpp:226-247 `exp`. -/
def exp (v : ℚ) (m : ℕ) : Option ℚ := expImpl v m 1 1 2 v

/-- math.hpp:259-265 `log_impl` with its `log_iter`; each turn may use `m` turns of `exp`. -/
def logImpl (x : ℚ) (m : ℕ) : ℕ → ℚ → Option ℚ
  | 0, _ => none
  | k + 1, y => do
    let e ← exp y m
    let next := y + 2 * (x - e) / (x + e)
    if y = next then some y else logImpl x m k next

/-- math.hpp:250-271 `log`. -/
def log (a : ℚ) (m : ℕ) : Option ℚ := logImpl a m m 0

/-! ### Sine and cosine (math.hpp:1111-1158) -/

/-- math.hpp:1115-1120, the loop of `sin`. -/
def sinLoop (numPow ε : ℚ) : ℕ → ℕ → ℚ → ℚ → Bool → Option ℚ
  | 0, _, _, _, _ => none
  | n + 1, i, base, result, negation =>
    if |base| > ε then
      let base := base * (numPow / ((i + 1) * (i + 2) : ℕ))
      let negation := !negation
      sinLoop numPow ε n (i + 2) base (result + reverseSignIf negation base) negation
    else some result

/-- math.hpp:1111-1122 `sin(num,ε)`; `pow(num)` is the square (C35). -/
def sin (num ε : ℚ) (n : ℕ) : Option ℚ := sinLoop (num * num) ε n 1 num num false

/-- math.hpp:1155-1158 `cos(num,ε)`; `pi` is what `π_with_ε(ε)` gives. -/
def cos (pi num ε : ℚ) (n : ℕ) : Option ℚ := sin (pi / 2 - num) ε n

/-! ### The inverse functions (math.hpp:1128-1153, 1200-1239) -/

/-- math.hpp:1141-1147, the loop of `arctan`. -/
def arctanLoop (numPow ε : ℚ) : ℕ → ℕ → ℚ → ℚ → Bool → Option ℚ
  | 0, _, _, _, _ => none
  | n + 1, i, base, result, negation =>
    let base := base * numPow
    let negation := !negation
    let sum := base / i
    let result := result + reverseSignIf negation sum
    if |sum| > ε then arctanLoop numPow ε n (i + 2) base result negation else some result

/-- math.hpp:1138-1148, the series. -/
def arctanSeries (num ε : ℚ) (n : ℕ) : Option ℚ := arctanLoop (num * num) ε n 1 num num false

/-- math.hpp:1128-1149 `arctan(num,ε)` of an unsigned fraction; the sign of the result is dropped in the
conversion. -/
def arctanU (pi num ε : ℚ) (n : ℕ) : Option ℚ :=
  if num > 1 then (arctanSeries num⁻¹ ε n).map fun r => |pi / 2 - (|r|)|
  else (arctanSeries num ε n).map fun r => |r|

/-- math.hpp:1128-1149 `arctan(num,ε)` of a signed fraction. -/
def arctan (pi num ε : ℚ) (n : ℕ) : Option ℚ :=
  if num < 0 then (arctanU pi |num| ε n).map fun r => -r
  else if num > 1 then (arctanSeries num⁻¹ ε n).map fun r => pi / 2 - r
  else arctanSeries num ε n

/-- math.hpp:1200-1203 `arccos`, 1218-1221 `arccot`: the same formula; the sign of the result is dropped. -/
def arccos (pi num ε : ℚ) (n : ℕ) : Option ℚ := 
  (arctan pi num ε n).map fun r => |pi / 2 - r|

/-- math.hpp:1209-1212 `arcsin`. -/
def arcsin (guess pi num ε : ℚ) (n : ℕ) : Option ℚ := do
  let s ← sqrt guess (1 - num * num) ε n
  arctan pi (num / s⁻¹) ε n

/-- math.hpp:1227-1230 `arcsec`. -/
def arcsec (pi num ε : ℚ) (n : ℕ) : Option ℚ := arccos pi num⁻¹ ε n

/-! ### π (math.hpp:1020-1106) -/

/-- math.hpp:1028-1042, the members of `π_with_ε_impl_t`. -/
structure Pi where
  ε : ℚ := 1 / 30
  result : ℚ := 0
  sum : ℚ := 1 / 30
  k : ℕ := 0
  k3 : ℕ := 0
  k6 : ℕ := 0
  sign : Bool := true
  linear : ℕ := 13591409
  k3Factorial : ℕ := 1
  k6Factorial : ℕ := 1
  kFactorialPow3 : ℕ := 1
  saver : ℚ := 1 / 5
  root : ℚ := 800
  power : ℕ := 640320
  accurate : ℕ := 0
  multiplier : ℕ := 3

/-- math.hpp:1046-1048 `take_value`. -/
def Pi.value (p : Pi) : ℚ := (12 * |if p.accurate ≠ 0 then p.result else 21| / p.root)⁻¹

/-- math.hpp:1055-1056 `for times(n) f *= ++c;` -/
def factorialOn : ℕ → ℕ → ℕ → ℕ × ℕ
  | 0, c, f => (c, f)
  | n + 1, c, f => factorialOn n (c + 1) (f * (c + 1))

/-- math.hpp:1049-1064 `do_base_iteration`. -/
def Pi.baseIteration (p : Pi) : Pi :=
  let sum := copyAsNegative
    (((p.linear * p.k6Factorial : ℕ) : ℚ) / ((p.k3Factorial * p.kFactorialPow3 * p.power : ℕ) : ℚ)) p.sign
  let (k3, k3Factorial) := factorialOn 3 p.k3 p.k3Factorial
  let (k6, k6Factorial) := factorialOn 6 p.k6 p.k6Factorial
  { p with
    sum := sum, k3 := k3, k3Factorial := k3Factorial, k6 := k6, k6Factorial := k6Factorial
    k := p.k + 1
    kFactorialPow3 := p.kFactorialPow3 * (p.k + 1) ^ 3
    linear := p.linear + 545140134
    power := p.power * 262537412640768000
    sign := !p.sign
    result := p.result + sum
    accurate := p.accurate + 14 }

/-- math.hpp:1065-1068 `do_sqrt_iteration`. -/
def Pi.sqrtIteration (p : Pi) : Pi :=
  { p with root := Series.sqrtIteration p.root 640320, multiplier := p.multiplier + 1 }

/-- math.hpp:1069-1073 `do_iteration`. -/
def Pi.iteration (p : Pi) : Pi :=
  let p := p.baseIteration
  if p.accurate ≠ 0 ∧ (p.accurate - 8) >>> p.multiplier ≠ 0 then p.sqrtIteration else p

/-- math.hpp:1078-1081 `operator()()`. -/
def Pi.plain (p : Pi) : Pi × ℚ :=
  let p := if p.accurate = 0 then p.baseIteration else p
  (p, p.value)

/-- math.hpp:1088-1089, the loop of `operator()(new_ε)`. -/
def Pi.baseLoop : ℕ → Pi → Option Pi
  | 0, _ => none
  | n + 1, p => if |p.sum| > p.ε then Pi.baseLoop n p.baseIteration else some p

/-- math.hpp:1084-1085: the root made precise enough. -/
def Pi.betterRoot (p : Pi) (newε : ℚ) (n : ℕ) : Option (ℚ × ℚ) :=
  if p.saver > newε then sqrtToNewEps 640320 newε n p.root p.saver else some (p.root, p.saver)

/-- math.hpp:1082-1092 `operator()(new_ε)`. -/
def Pi.within (p : Pi) (newε : ℚ) (n : ℕ) : Option (Pi × ℚ) :=
  if newε < p.ε then
    (p.betterRoot newε n).bind fun x =>
      (Pi.baseLoop n { p with root := x.1, saver := x.2, ε := newε }).map fun p => (p, p.value)
  else some (p, p.value)

/-- What can be done with the object: the public functions (math.hpp:1044-1092); `clean_up` keeps all values. -/
inductive Pi.Action where
  | base | sqrt | both | cleanUp | plain
  | within (ε : ℚ)

/-- One action; `n` bounds the turns of its loops. -/
def Pi.act (n : ℕ) (p : Pi) : Pi.Action → Option Pi
  | .base => some p.baseIteration
  | .sqrt => some p.sqrtIteration
  | .both => some p.iteration
  | .cleanUp => some p
  | .plain => some p.plain.1
  | .within ε => (p.within ε n).map (·.1)

end ELC.Series
