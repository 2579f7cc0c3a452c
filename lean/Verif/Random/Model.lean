import Verif.Arith.Model
import Verif.Bits.Model
/-!
Random numbers: `F/random/defs.hpp`.

The seed is a number below `2^64` (`seed_type`, default_data_type.hpp:40).  `none` is undefined behaviour or an access
outside the entropy table; where a loop may go on for ever the result says so separately.
-/
namespace ELC.Random

open ELC.Bits (bitsOf getBitnum)
open ELC (rotl)

/-! ### the parameters -/

/-- defs.hpp:62-76: the product of the prime factors of `BIT_POSSIBILITY` (which is 2). -/
def primeFactorLoop (root : Nat → Nat) : Nat → Nat → Nat → Nat → Option Nat
  | 0, _, _, _ => none
  | fuel + 1, test, tester, off =>
    if test = 1 then some off
    else if test % tester = 0 then
      primeFactorLoop root fuel (test / tester) 2 (if off % tester ≠ 0 then off * tester % 2 ^ 64 else off)
    else (Arith.primeAbove root fuel tester).bind fun tester' => primeFactorLoop root fuel test tester' off

/-- defs.hpp:80-81. -/
def fourLoop (m : Nat) : Nat → Nat → Option Nat
  | 0, _ => none
  | fuel + 1, off => if m % 4 = 0 ∧ off % 4 ≠ 0 then fourLoop m fuel (off * 2 % 2 ^ 64) else some off

/-- defs.hpp:86-91; `s` is the value of `sqrt(m)`, computed in floating point (as the smallest whole number not below it). -/
def growLoop (root : Nat → Nat) (s : Nat) : Nat → Nat → Option Nat
  | 0, _ => none
  | fuel + 1, off =>
    (Arith.primeAbove root fuel off).bind fun p =>
      if off * p % 2 ^ 64 < s then growLoop root s fuel (off * p % 2 ^ 64) else some (off * p % 2 ^ 64)

/-- defs.hpp:54-94 `get_multiplier_by_modulus`. -/
def multiplier (root : Nat → Nat) (s fuel m : Nat) : Option Nat :=
  (primeFactorLoop root fuel 2 2 1).bind fun off =>
    (fourLoop (if m = 0 then 2 ^ 64 - 4 else m) fuel off).bind fun off' =>
      (growLoop root s fuel off').map fun r => (r + 1) % 2 ^ 64

/-- defs.hpp:45-51 `get_modulus_of<seed_type>`: it overflows to 0. -/
def modulus : Nat := 2 ^ 64 % 2 ^ 64

/-- defs.hpp:100-106 `get_increment_by_modulus`. -/
def increment : Nat := 1

/-- defs.hpp:165: one step of the generator with `k` bits. -/
def lcg (k a c x : Nat) : Nat := (a * x + c) % 2 ^ k

/-- defs.hpp:126 `sowing_seed_one_step`. -/
def sow (x : Nat) : Nat := (13 * x + 7) % 2 ^ 64

/-! ### the generator -/

/-- defs.hpp:119-124: the seed and the entropy table of 256 * 8 bytes.  The original seed is only stored. -/
structure State where
  seed : Nat
  entropy : List (BitVec 8)

/-- `data_ptr_cast<result_type>(_εντροπία_data)[i]` for a word of `n` bytes, on a little-endian machine. -/
def readWord (d : List (BitVec 8)) (n i : Nat) : Option Nat :=
  if n * i + n ≤ d.length then some (((d.drop (n * i)).take n).foldr (fun b v => b.toNat + 256 * v) 0) else none

/-- The bytes of a word of `n` bytes. -/
def wordBytes : Nat → Nat → List (BitVec 8)
  | 0, _ => []
  | n + 1, v => BitVec.ofNat 8 v :: wordBytes n (v / 256)

/-- The same place written. -/
def writeWord (d : List (BitVec 8)) (n i v : Nat) : Option (List (BitVec 8)) :=
  if n * i + n ≤ d.length then some (d.take (n * i) ++ wordBytes n v ++ d.drop (n * i + n)) else none

/-- defs.hpp:134-138: the loop of `set`; the number is how many places are left. -/
def setLoop : Nat → State → Option State
  | 0, st => some st
  | i + 1, st =>
    (writeWord st.entropy 8 i (st.seed ^^^ (st.seed >>> 32))).bind fun d => setLoop i ⟨sow st.seed, d⟩

/-- defs.hpp:129-139 `set`. -/
def setSeed (seed : Nat) : Option State := setLoop 256 ⟨seed, List.replicate 2048 0⟩

/-- defs.hpp:155-183 `base_gen_randbit` for a result of `2^k` bytes, `k ≤ 2`. -/
def genBase (a : Nat) (k : Nat) (st : State) : Option (Nat × State) :=
  let seed' := lcg 64 a increment st.seed
  let half := bitsOf k
  let cut := 64 - 2 * half
  let new := (seed' >>> cut) % 2 ^ (2 * half)
  let old := (st.seed >>> cut) % 2 ^ (2 * half)
  let base := (new >>> half) % 2 ^ half
  let rot := (old >>> half) % 2 ^ half
  let i := rot % (2048 / 2 ^ k)
  (readWord st.entropy (2 ^ k) i).bind fun x =>
    let r := (rotl (BitVec.ofNat half base) rot).toNat ^^^ x
    (writeWord st.entropy (2 ^ k) i r).map fun d => (r, ⟨seed', d⟩)

/-- defs.hpp:185-195 `gen_randbit` for `2^k` bytes. -/
def gen (a : Nat) (k : Nat) (st : State) : Option (Nat × State) :=
  if k ≤ 2 then genBase a k st
  else
    (genBase a 2 st).bind fun r =>
      (genBase a 2 r.2).map fun s => ((r.1 <<< 32) ||| s.1, s.2)

/-- A sequence of draws of various sizes. -/
def draws (a : Nat) : List Nat → State → Option (List Nat × State)
  | [], st => some ([], st)
  | k :: ks, st => (genBase a k st).bind fun r => (draws a ks r.2).map fun s => (r.1 :: s.1, s.2)

/-! ### numbers in a range

The words drawn are given as a sequence, so that the statements hold whatever the generator yields. -/

/-- A native integer type: `2^k` bytes, with a sign or without. -/
structure IntT where
  k : Nat
  signed : Bool

def IntT.width (T : IntT) : Nat := bitsOf T.k

/-- The smallest and the largest value. -/
def IntT.min (T : IntT) : Int := if T.signed then -2 ^ (T.width - 1) else 0
def IntT.max (T : IntT) : Int := if T.signed then 2 ^ (T.width - 1) - 1 else 2 ^ T.width - 1

/-- A number converted to the type. -/
def IntT.wrap (T : IntT) (v : Int) : Int :=
  if T.signed ∧ 2 ^ (T.width - 1) ≤ v % 2 ^ T.width then v % 2 ^ T.width - 2 ^ T.width else v % 2 ^ T.width

/-- defs.hpp:293 `_diff(amax-amin)`: for a signed type that is not promoted, a difference above the largest value is
undefined. -/
def mkDiff (T : IntT) (lo hi : Int) : Option Nat :=
  if T.signed ∧ 32 ≤ T.width ∧ T.max < hi - lo then none else some ((hi - lo) % 2 ^ T.width).toNat

/-- defs.hpp:228 `gen_randbit<T>()&((T{1}<<bitnum)-1)` for the word `g`; the shift is done in a type of at least 32 bits and
undefined from its width on. -/
def masked (T : IntT) (bitnum g : Nat) : Option Nat :=
  if bitnum < max 32 T.width then some (g &&& (2 ^ bitnum - 1)) else none

/-- defs.hpp:298-307: the loop.  `some none`: still running when the fuel is used up. -/
def drawLoop (draw : Nat → Option (Nat × Nat)) (accept : Nat → Bool) : Nat → Nat → Option (Option Nat)
  | 0, _ => some none
  | fuel + 1, pos => (draw pos).bind fun r => if accept r.1 then some (some r.1) else drawLoop draw accept fuel r.2

/-- defs.hpp:285-308 and 326-334 `between(a,b).inclusive()` (`excl` false) or `.exclusive()` (true). -/
def between (T : IntT) (g : Nat → Nat) (excl : Bool) (fuel : Nat) (a b : Int) : Option (Option Int) :=
  (mkDiff T (if a ≤ b then a else b) (if a ≤ b then b else a)).bind fun diff =>
    (drawLoop (fun pos => (masked T (getBitnum T.k diff) (g pos)).map fun v => (v, pos + 1))
        (fun d => if excl then d < diff else d ≤ diff) fuel 0).map fun r =>
      r.map fun (d : Nat) => T.wrap ((if a ≤ b then a else b) + (d : Int))

/-- defs.hpp:215-225 `gen_randbit_with_bitnum` of a big number type with words of `w` bits: the words, the least significant
first, and the position in the sequence afterwards. -/
def bigDigits (w : Nat) (g : Nat → Nat) (bitnum pos : Nat) : Option (List Nat × Nat) :=
  if _h : 0 < w ∧ w < bitnum then
    (bigDigits w g (bitnum - w) (pos + 1)).map fun r => (g pos :: r.1, r.2)
  else if bitnum < w then some ([g pos &&& (2 ^ bitnum - 1)], pos + 1)
  else none
termination_by bitnum
decreasing_by omega

/-- The value of words, least significant first. -/
def wordsValue (w : Nat) : List Nat → Nat
  | [] => 0
  | d :: ds => d + 2 ^ w * wordsValue w ds

/-- ubigint.hpp:1216-1220 `get_bitnum` of a big number. -/
def bigBitnum (n : Nat) : Nat := if n = 0 then 0 else Nat.log2 n + 1

/-- defs.hpp:285-308 for a big integer type. -/
def betweenBig (w : Nat) (g : Nat → Nat) (excl : Bool) (fuel : Nat) (a b : Int) : Option (Option Int) :=
  let lo := if a ≤ b then a else b
  let diff := ((if a ≤ b then b else a) - lo).toNat
  (drawLoop (fun pos => (bigDigits w g (bigBitnum diff) pos).map fun r => (wordsValue w r.1, r.2))
      (fun d => if excl then d < diff else d ≤ diff) fuel 0).map fun r => r.map fun (d : Nat) => lo + (d : Int)

/-- defs.hpp:352-354: a random truth value from a random byte. -/
def genBool (a : Nat) (st : State) : Option (Bool × State) := (genBase a 0 st).map fun r => ((r.1 &&& 1) ≠ 0, r.2)

end ELC.Random
