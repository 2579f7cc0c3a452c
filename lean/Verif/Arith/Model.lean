import Mathlib.Data.Nat.Sqrt
import Mathlib.Tactic.SplitIfs
/-!
Integer functions of `F/base_defs/math.hpp`.  Numbers are naturals.  `M` is the modulus of the arithmetic of the type:
`2^w` for a native type of `w` bits, `0` (`x % 0 = x`) for the big integers.  `fuel` bounds the number of loop passes
or nested calls; running out of it is `none`.
-/
namespace ELC.Arith

/-! ### `integer_log` -/

/-- math.hpp:286-291, the loop of `integer_log_impl`: the new `aret` and `tester`. -/
def logLoop (M a lv num : Nat) : Nat → Nat → Nat → Option (Nat × Nat)
  | 0, _, _ => none
  | fuel + 1, tester, aret =>
    let tmp := tester * lv % M
    if tmp > a then some (aret, tester) else logLoop M a lv num fuel tmp (aret + num)

/-- math.hpp:279-292 `integer_log_impl`: the result and the new `tester`.  (`num` is a `size_t`, here unbounded.) -/
def logImpl (M a : Nat) : Nat → Nat → Nat → Nat → Option (Nat × Nat)
  | 0, _, _, _ => none
  | fuel + 1, tester, lv, num =>
    let next := lv * lv % M
    (if next < a then logImpl M a fuel tester next (num * 2) else some (0, tester)).bind fun r =>
      logLoop M a lv num fuel r.2 r.1

/-- math.hpp:277-296 `integer_log`. -/
def integerLog (M fuel a b : Nat) : Option Nat := (logImpl M a fuel (1 % M) (b % M) 1).map (·.1)

/-! ### `pow` for the big types -/

/-- math.hpp:318-323, the loop of `pow`. -/
def powLoop (a b aret : Nat) : Nat :=
  if _h : b = 0 then aret else powLoop (a * a) (b / 2) (if b % 2 = 1 then aret * a else aret)
termination_by b
decreasing_by omega

/-- math.hpp:309-325 `pow` for unsigned big types. -/
def powBig (a b : Nat) : Nat := powLoop a b 1

/-- math.hpp:311-315 `pow` for signed big types, with `copy_as_negative` (67-81): `T{}-x`. -/
def powSigned (a : Int) (b : Nat) : Int :=
  let isneg := decide (a < 0) && decide (b % 2 = 1)
  let r : Int := powBig a.natAbs b
  if isneg then 0 - r else r

/-! ### `factorial` -/

/-- math.hpp:841-844, the loop of `factorial` from `start` to `stop`, in the type with modulus `M`. -/
def factLoop (M start stop s : Nat) : Nat :=
  if _h : start < stop then factLoop M (start + 1) stop (s * start % M) else s
termination_by stop - start

/-- math.hpp:836-848 `factorial`; `n` and `start` are 32-bit. -/
def factorial (M : Nat) : Nat → Nat → Nat → Option Nat
  | 0, _, _ => none
  | fuel + 1, n, start =>
    if n < 16 then some (factLoop M start ((start + n) % 2 ^ 32) (1 % M))
    else
      let m := (n + 1) % 2 ^ 32 / 2
      (factorial M fuel m start).bind fun x =>
        (factorial M fuel (n - m) ((start + m) % 2 ^ 32)).map fun y => x * y % M

/-! ### greatest common divisors -/

/-- What `binary_gcd` needs to know about the type: `countr_zero(0)`, the least shift count that is undefined, and the
modulus. -/
structure Kind where
  zeroCount : Nat
  shiftLimit : Option Nat
  modulus : Nat

/-- `ubigint`: `countr_zero` of the empty array is 0 (ubigint.hpp:1193-1207). -/
def big : Kind := ⟨0, none, 0⟩
/-- An unsigned type of `w` bits: `countr_zero(0)` is `w` (bit.hpp:231-245); shifting is undefined from the width of the
promoted type on, which has at least 32 bits. -/
def native (w : Nat) : Kind := ⟨w, some (max 32 w), 2 ^ w⟩
/-- An unsigned type of `w` bits as processors shift: the one shift that the language leaves undefined in `binary_gcd`
(math.hpp:922) is that of 0 by the full width, and 0 stays 0 whichever bits of the count are used. -/
def processor (w : Nat) : Kind := ⟨w, none, 2 ^ w⟩

/-- `countr_zero` of a non-zero number (C12 and C33 relate the code to it). -/
def trailing (n : Nat) : Nat :=
  if _h : n = 0 then 0 else if n % 2 = 1 then 0 else trailing (n / 2) + 1
termination_by n
decreasing_by omega

/-- bit.hpp:231-245 and ubigint.hpp:1193-1207 `countr_zero`. -/
def Kind.ctz (K : Kind) (n : Nat) : Nat := if n = 0 then K.zeroCount else trailing n

/-- The shift is defined. -/
def Kind.shiftOk (K : Kind) (c : Nat) : Bool :=
  match K.shiftLimit with
  | none => true
  | some l => decide (c < l)

theorem shiftRight_le' (x c : Nat) : x >>> c ≤ x := by
  rw [Nat.shiftRight_eq_div_pow]; exact Nat.div_le_self _ _

/-- math.hpp:916-927, the loop of `binary_gcd`. -/
def binaryLoop (K : Kind) (x y shift : Nat) : Option Nat :=
  if _h : y = 0 then some ((x <<< shift) % K.modulus)
  else if K.shiftOk (K.ctz x) && K.shiftOk (K.ctz y) then
    if x >>> K.ctz x < y >>> K.ctz y then
      binaryLoop K (y >>> K.ctz y - x >>> K.ctz x) (x >>> K.ctz x) (shift + min (K.ctz x) (K.ctz y))
    else
      binaryLoop K (x >>> K.ctz x - y >>> K.ctz y) (y >>> K.ctz y) (shift + min (K.ctz x) (K.ctz y))
  else none
termination_by x + y + (if y = 0 then 0 else 1)
decreasing_by
  all_goals
    have h1 := shiftRight_le' x (K.ctz x)
    have h2 := shiftRight_le' y (K.ctz y)
    generalize x >>> K.ctz x = x' at *
    generalize y >>> K.ctz y = y' at *
    split_ifs <;> omega

/-- math.hpp:912-930 `binary_gcd`. -/
def binaryGcd (K : Kind) (x y : Nat) : Option Nat := binaryLoop K x y 0

/-- math.hpp:932-943 `euclidean_gcd` for unsigned native types; `none` is a division by zero. -/
def euclideanGcd (x y : Nat) : Option Nat :=
  if _h : y = 0 then some x
  else if _h' : x < y then (if _h0 : x = 0 then none else euclideanGcd x (y % x))
  else euclideanGcd y (x % y)
termination_by y
decreasing_by
  · have := Nat.mod_lt y (Nat.pos_of_ne_zero _h0); omega
  · exact Nat.mod_lt x (Nat.pos_of_ne_zero _h)

/-- math.hpp:932-943 `euclidean_gcd` for signed native types, `%` truncating: the loop.  (Lines 936 and 942 return different
types, so that a strict compiler rejects the template for signed types; the loop is modelled as written.) -/
def euclideanSigned : Nat → Int → Int → Option Int
  | 0, _, _ => none
  | fuel + 1, x, y =>
    if y = 0 then some x
    else
      let p := if x < y then (y, x) else (x, y)
      if p.2 = 0 then none else euclideanSigned fuel p.2 (p.1.tmod p.2)

/-- math.hpp:968-983, the inner loop of `lehmer_gcd`: `A, B, C, D` at its end.  The numbers are `ubigint`s: `-=` stops at
zero (C06).  `quot` is the `/` of `ubigint`s, of which the theorems need only two values: it can be one too large (C09). -/
def lehmerInner (quot : Nat → Nat → Nat) : Nat → Nat → Nat → Nat → Nat → Nat → Nat → Option (Nat × Nat × Nat × Nat)
  | 0, _, _, _, _, _, _ => none
  | fuel + 1, A, B, C, D, a, b =>
    let q := quot (a + A) (b + C)
    let q2 := quot (a + B) (b + D)
    if q ≠ q2 then some (A, B, C, D)
    else
      let A' := A - q * C
      let B' := B - q * D
      let a' := a - q * b
      if D ≠ 0 then lehmerInner quot fuel C D A' B' b a' else some (C, D, A', B')

/-- math.hpp:958-989, the outer loop of `lehmer_gcd`; `W` is the number of values of a digit.  `--m` wraps around at zero. -/
def lehmerOuter (W : Nat) (quot : Nat → Nat → Nat) : Nat → Nat → Nat → Nat → Option Nat
  | 0, _, _, _ => none
  | fuel + 1, m, x, y =>
    if x = 0 ∨ y = 0 then some x
    else
      let m' := if m = 0 then 2 ^ 64 - 1 else m - 1
      (lehmerInner quot fuel 1 0 0 1 (x / W ^ m') (y / W ^ m')).bind fun r =>
        if r.2.1 = 0 then lehmerOuter W quot fuel m' y (x % y)
        else lehmerOuter W quot fuel m' (r.1 * x + r.2.1 * y) (r.2.2.1 * x + r.2.2.2 * y)

/-- The number of digits of `n` (no leading zeros). -/
def digits (W n : Nat) : Nat := if _h : n = 0 ∨ W ≤ 1 then 0 else digits W (n / W) + 1
termination_by n
decreasing_by exact Nat.div_lt_self (by omega) (by omega)

/-- math.hpp:950-990 `lehmer_gcd` for `ubigint`. -/
def lehmerGcd (W : Nat) (quot : Nat → Nat → Nat) (fuel x y : Nat) : Option Nat :=
  let p := if x < y then (y, x) else (x, y)
  if digits W p.2 ≤ 1 then binaryGcd big p.1 p.2 else lehmerOuter W quot fuel (digits W p.2) p.1 p.2

/-- math.hpp:1001-1013 `gcd` for `ubigint`. -/
def gcdBig (W : Nat) (quot : Nat → Nat → Nat) (fuel x y : Nat) : Option Nat :=
  if max (digits W x) (digits W y) ≥ 256 then lehmerGcd W quot fuel x y else binaryGcd big x y

/-! ### primes

`root a` is `safe_arithmetic_cast<T>(sqrt(a))`, computed in floating point; the theorems say what they need of it. -/

/-- math.hpp:492-494, the loop of `is_prime_num_no_pre_check`. -/
def noFactor (a b c : Nat) : Bool :=
  if _h : c ≤ b then (if a % c = 0 ∨ a % (c + 2) = 0 then false else noFactor a b (c + 6)) else true
termination_by b + 1 - c

/-- math.hpp:475-502 `is_prime_num_no_pre_check`. -/
def noPreCheck (root : Nat → Nat) (a : Nat) : Bool := noFactor a (root a) 5

/-- math.hpp:505-529 `is_prime_num` for native integers with absolute value `b`; `mod(b,6)-1u` wraps around. -/
def isPrimeNum (root : Nat → Nat) (b : Nat) : Bool :=
  if b < 4 then true
  else if (b % 6 + 2 ^ 32 - 1) % 2 ^ 32 % 4 ≠ 0 then false
  else noPreCheck root b

/-- math.hpp:551-553, the loop of `get_prime_num_big_or_eq_than`. -/
def upLoop (root : Nat → Nat) : Nat → Nat → Option Nat
  | 0, _ => none
  | fuel + 1, a =>
    if noPreCheck root a then some a
    else if noPreCheck root (a + 2) then some (a + 2)
    else upLoop root fuel (a + 6)

/-- math.hpp:535-554 `get_prime_num_big_or_eq_than`. -/
def primeAtLeast (root : Nat → Nat) (fuel a : Nat) : Option Nat :=
  if a < 4 then some a
  else if a % 6 = 1 ∧ noPreCheck root a = true then some a
  else upLoop root fuel (a + (if a % 6 ≠ 0 then 5 - a % 6 else 1))

/-- math.hpp:579-581 `get_prime_num_big_than`. -/
def primeAbove (root : Nat → Nat) (fuel a : Nat) : Option Nat := primeAtLeast root fuel (a + 1)

/-- math.hpp:573-575, the loop of `get_prime_num_less_or_eq_than`; going below zero is `none`. -/
def downLoop (root : Nat → Nat) (a : Nat) : Option Nat :=
  if noPreCheck root a then some a
  else if a < 2 then none
  else if noPreCheck root (a - 2) then some (a - 2)
  else if _h : a < 6 then none else downLoop root (a - 6)
termination_by a
decreasing_by omega

/-- math.hpp:557-576 `get_prime_num_less_or_eq_than`. -/
def primeAtMost (root : Nat → Nat) (a : Nat) : Option Nat :=
  if a < 4 then some a
  else if a % 6 = 1 ∧ noPreCheck root a = true then some a
  else downLoop root (a - (if a % 6 ≠ 0 then a % 6 - 1 else 5))

/-! ### factorisation -/

/-- math.hpp:642-645, the inner loop of `get_prime_factorization`: the new `m` and how often `i` was pushed. -/
def divideOut (i m : Nat) : Option (Nat × Nat) :=
  if m % i = 0 then
    (if _h : 1 < i ∧ 0 < m then (divideOut i (m / i)).map fun r => (r.1, r.2 + 1) else none)
  else some (m, 0)
termination_by m
decreasing_by exact Nat.div_lt_self (by omega) (by omega)

/-- math.hpp:640-647, the loop of `get_prime_factorization(n).to<…>()`; `none` also for the inner loop that does not end
when `m` is 0. -/
def factorLoop (root : Nat → Nat) : Nat → Nat → Nat → Option (List Nat)
  | 0, _, _ => none
  | fuel + 1, i, m =>
    if m = 1 then some []
    else
      (divideOut i m).bind fun r =>
        (primeAbove root fuel i).bind fun i' =>
          (factorLoop root fuel i' r.1).map fun l => List.replicate r.2 i ++ l

/-- math.hpp:636-652 `get_prime_factorization(n).to<…>()` for unsigned types. -/
def factorize (root : Nat → Nat) (fuel n : Nat) : Option (List Nat) := factorLoop root fuel 2 n

/-- math.hpp:667-674, the loop of `get_prime_factorization(n).unique().to<…>()`. -/
def uniqueLoop (root : Nat → Nat) : Nat → Nat → Nat → Option (List Nat)
  | 0, _, _ => none
  | fuel + 1, i, m =>
    if m = 1 then some []
    else
      (divideOut i m).bind fun r =>
        (primeAbove root fuel i).bind fun i' =>
          (uniqueLoop root fuel i' r.1).map fun l => if r.2 = 0 then l else i :: l

/-- math.hpp:663-679 `get_prime_factorization(n).unique().to<…>()` for unsigned types. -/
def factorizeUnique (root : Nat → Nat) (fuel n : Nat) : Option (List Nat) := uniqueLoop root fuel 2 n

/-- math.hpp:636-652 `get_prime_factorization(n).to<…>()` for signed types; `abs` is exact, so the least value of a native
type is left out. -/
def factorizeSigned (root : Nat → Nat) (fuel : Nat) (n : Int) : Option (List Int) :=
  (factorize root fuel n.natAbs).map fun l => l.map Int.ofNat ++ if n < 0 then [-1] else []

/-- math.hpp:663-679 `get_prime_factorization(n).unique().to<…>()` for signed types. -/
def factorizeUniqueSigned (root : Nat → Nat) (fuel : Nat) (n : Int) : Option (List Int) :=
  (factorizeUnique root fuel n.natAbs).map fun l => l.map Int.ofNat ++ if n < 0 then [-1] else []

/-- math.hpp:699-710 `prime_factorization_table_t::table_size`: the loop. -/
def countLoop (root : Nat → Nat) : Nat → Nat → Nat → Nat → Option Nat
  | 0, _, _, _ => none
  | fuel + 1, i, m, n =>
    if m = 1 then some n
    else
      (divideOut i m).bind fun r =>
        (primeAbove root fuel i).bind fun i' => countLoop root fuel i' r.1 (n + r.2)

/-- math.hpp:769-780 `unique_prime_factorization_table_t::table_size`: the loop. -/
def countUniqueLoop (root : Nat → Nat) : Nat → Nat → Nat → Nat → Option Nat
  | 0, _, _, _ => none
  | fuel + 1, i, m, n =>
    if m = 1 then some n
    else
      (divideOut i m).bind fun r =>
        (primeAbove root fuel i).bind fun i' => countUniqueLoop root fuel i' r.1 (if r.2 = 0 then n else n + 1)

/-- math.hpp:717, 787 `_table[index++]=i`, `k` times; writing past the table is `none`. -/
def storeTimes (i : Nat) : Nat → List (Option Nat) → Nat → Option (List (Option Nat) × Nat)
  | 0, t, index => some (t, index)
  | k + 1, t, index => if index < t.length then storeTimes i k (t.set index (some i)) (index + 1) else none

/-- math.hpp:712-722 the constructor of `prime_factorization_table_t`: the loop.  An element of the table that has not been
written is `none`. -/
def fillLoop (root : Nat → Nat) : Nat → Nat → Nat → List (Option Nat) → Nat → Option (List (Option Nat))
  | 0, _, _, _, _ => none
  | fuel + 1, i, m, t, index =>
    if m = 1 then some t
    else
      (divideOut i m).bind fun r =>
        (storeTimes i r.2 t index).bind fun s =>
          (primeAbove root fuel i).bind fun i' => fillLoop root fuel i' r.1 s.1 s.2

/-- math.hpp:782-792 the constructor of `unique_prime_factorization_table_t`: the loop. -/
def fillUniqueLoop (root : Nat → Nat) : Nat → Nat → Nat → List (Option Nat) → Nat → Option (List (Option Nat))
  | 0, _, _, _, _ => none
  | fuel + 1, i, m, t, index =>
    if m = 1 then some t
    else
      (divideOut i m).bind fun r =>
        (storeTimes i (if r.2 = 0 then 0 else 1) t index).bind fun s =>
          (primeAbove root fuel i).bind fun i' => fillUniqueLoop root fuel i' r.1 s.1 s.2

/-- math.hpp:696-722 `prime_factorization_table_t<number_T, n>`: the table.  C++ has no arrays without elements, so there is
none for 1. -/
def factorTable (root : Nat → Nat) (fuel n : Nat) : Option (List (Option Nat)) :=
  (countLoop root fuel 2 n 0).bind fun size =>
    if size = 0 then none else fillLoop root fuel 2 n (List.replicate size none) 0

/-- math.hpp:766-792 `unique_prime_factorization_table_t<number_T, n>`: the table. -/
def uniqueFactorTable (root : Nat → Nat) (fuel n : Nat) : Option (List (Option Nat)) :=
  (countUniqueLoop root fuel 2 n 0).bind fun size =>
    if size = 0 then none else fillUniqueLoop root fuel 2 n (List.replicate size none) 0

/-- math.hpp:158-162 `ceil_div` for unsigned types. -/
def ceilDiv (a b : Nat) : Option Nat := if b = 0 then none else some (a / b + if a % b ≠ 0 then 1 else 0)

end ELC.Arith
