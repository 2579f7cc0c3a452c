import Verif.Ubig.Model
/-!
Model of the signed big integer and the big fractions over the stored digits: `F/bignum/bignum/bigint.hpp`,
`F/bignum/bignum/ubigfloat.hpp`, `F/bignum/bignum/bigfloat.hpp` and `gcd` of `F/base_defs/math.hpp`, every operation on a
magnitude, a numerator or a denominator being the one of the `Ubig` model.

`w` is the digit width, `cut` the cutting point of the divide-and-conquer division (see `Ubig.Model`), and `none` an
access outside the storage or an operation without a defined result.

Simplification: operands are lvalues and distinct objects; `bigint` operands only, no native integers.
-/
namespace ELC.Wide

/-! ### the signed integer -/

/-- bigint.hpp:39-41: the two members. -/
structure SBig where
  neg : Bool
  num : List Nat
deriving DecidableEq, Repr

namespace SBig

/-- bigint.hpp:43-48 `bigint(ubigint,bool)`: zero is stored as positive; `!_num` is ubigint.hpp:1165-1168. -/
def make (num : List Nat) (neg : Bool) : SBig := ⟨if num = [] then false else neg, num⟩

/-- bigint.hpp:65-69 `operator==`. -/
def eq (a b : SBig) : Bool := if a.neg != b.neg then false else Ubig.eq a.num b.num

/-- bigint.hpp:72-79 `operator<=>`. -/
def cmp (a b : SBig) : Ordering :=
  if a.neg != b.neg then (if a.neg then .lt else .gt)
  else
    let tmp := Ubig.cmp a.num b.num
    if a.neg then tmp.swap else tmp

/-- bigint.hpp:115-117 `operator-()const&`. -/
def negL (a : SBig) : SBig := make a.num (!a.neg)

/-- bigint.hpp:118-121 `operator-()&&`. -/
def negR (a : SBig) : SBig := ⟨!a.neg, a.num⟩

/-- bigint.hpp:155-167 `operator-(T&&)const&` (`sign` taken as assignable; it is declared `const`). -/
def sub (w : Nat) (a b : SBig) : Option SBig :=
  if a.neg != b.neg then (Ubig.add w a.num b.num).map fun n => make n a.neg
  else if Ubig.cmp a.num b.num = .lt then (Ubig.sub w b.num a.num).map fun n => make n (!a.neg)
  else (Ubig.sub w a.num b.num).map fun n => make n a.neg

/-- bigint.hpp:220-233 `operator-=`; `other_abs` is a copy. -/
def subAssign (w : Nat) (a b : SBig) : Option SBig :=
  (if a.neg == b.neg then Ubig.addAssign w a.num b.num else some a.num).bind fun num =>
  if Ubig.cmp num b.num = .lt then (Ubig.sub w b.num num).map fun n => ⟨!a.neg, n⟩
  else (Ubig.sub w num b.num).map fun n => ⟨a.neg, n⟩

/-- bigint.hpp:209-218 `operator+=`; for the calls see `Bigint.addAssign`.  `fuel` bounds the number of nested calls. -/
def addAssign (w : Nat) : Nat → SBig → SBig → Option SBig
  | 0, _, _ => none
  | fuel+1, a, b =>
    if a.neg == b.neg then (Ubig.addAssign w a.num b.num).map fun n => ⟨a.neg, n⟩
    else if a.neg then addAssign w fuel (negR (negR a)) b
    else subAssign w a (negL b)

/-- bigint.hpp:297-299 `operator-(bigint&&)const&`. -/
def subRvalue (w fuel : Nat) (a b : SBig) : Option SBig := addAssign w fuel (negR b) a

/-- bigint.hpp:145-153 `operator+(T&&)const&` for two lvalues. -/
def add (w fuel : Nat) (a b : SBig) : Option SBig :=
  if a.neg == b.neg then (Ubig.add w a.num b.num).map fun n => make n a.neg
  else if a.neg then subRvalue w fuel b (negL a)
  else subRvalue w fuel a (negL b)

/-- bigint.hpp:170-173 `operator*`. -/
def mul (w : Nat) (a b : SBig) : Option SBig := (Ubig.mul w a.num b.num).map fun n => make n (a.neg != b.neg)
/-- bigint.hpp:176-179 `operator/`. -/
def div (w : Nat) (cut : Nat → Nat) (a b : SBig) : Option SBig :=
  (Ubig.div w cut a.num b.num).map fun n => make n (a.neg != b.neg)
/-- bigint.hpp:182-184 `operator%`. -/
def mod (w : Nat) (cut : Nat → Nat) (a b : SBig) : Option SBig :=
  (Ubig.mod w cut a.num b.num).map fun n => make n a.neg
/-- bigint.hpp:236-240 `operator*=`; ubigint.hpp:1048-1052. -/
def mulAssign (w : Nat) (a b : SBig) : Option SBig := (Ubig.mul w a.num b.num).map fun n => ⟨a.neg != b.neg, n⟩
/-- bigint.hpp:243-247 `operator/=`; ubigint.hpp:1054-1058. -/
def divAssign (w : Nat) (cut : Nat → Nat) (a b : SBig) : Option SBig :=
  (Ubig.div w cut a.num b.num).map fun n => ⟨a.neg != b.neg, n⟩
/-- bigint.hpp:250-254 `operator%=`. -/
def modAssign (w : Nat) (cut : Nat → Nat) (a b : SBig) : Option SBig :=
  (Ubig.mod w cut a.num b.num).map fun n => ⟨a.neg, n⟩

/-- bigint.hpp:187-189 `operator<<` for an unsigned count. -/
def shl (w : Nat) (a : SBig) (n : Nat) : SBig := make (Ubig.shl w a.num n) a.neg
/-- bigint.hpp:192-194 `operator>>` for an unsigned count. -/
def shr (w : Nat) (a : SBig) (n : Nat) : Option SBig := (Ubig.shr w a.num n).map fun m => make m a.neg
/-- bigint.hpp:263-266 `operator>>=` for an unsigned count. -/
def shrAssign (w : Nat) (a : SBig) (n : Nat) : SBig := ⟨a.neg, Ubig.shrAssign w a.num n⟩

/-- bigint.hpp:311-320 `operator++`. -/
def inc (w : Nat) (a : SBig) : SBig :=
  if a.neg then
    let n := Ubig.subOne w a.num
    if n = [] then ⟨false, n⟩ else ⟨true, n⟩
  else ⟨false, Ubig.addOne w a.num⟩

/-- bigint.hpp:327-335 `operator--`. -/
def dec (w : Nat) (a : SBig) : SBig :=
  let neg := if !a.neg && a.num == [] then true else a.neg
  if neg then ⟨neg, Ubig.addOne w a.num⟩ else ⟨neg, Ubig.subOne w a.num⟩

end SBig

/-! ### the greatest common divisor -/

/-- math.hpp:915-929, `binary_gcd` of `ubigint`s; `k` is the level of `base_type`, `w = 8·2^k`.  `fuel` bounds the number
of rounds, `none` being "not finished yet" (`gcd_correct` says how much is enough).  The count of common factors of two
does not wrap around: simplification. -/
def gcdLoop (k : Nat) : Nat → List Nat → List Nat → Nat → Option (List Nat)
  | 0, _, _, _ => none
  | fuel+1, x, y, shift =>
    if y = [] then some (Ubig.shl (Bits.bitsOf k) x shift)
    else
      let xz := Ubig.countrZero k x
      let yz := Ubig.countrZero k y
      let x := Ubig.shrAssign (Bits.bitsOf k) x xz
      let y := Ubig.shrAssign (Bits.bitsOf k) y yz
      let (x, y) := if Ubig.cmp x y = .lt then (y, x) else (x, y)
      (Ubig.sub (Bits.bitsOf k) x y).bind fun x => gcdLoop k fuel x y (shift + min xz yz)

/-- math.hpp:968-983, the inner loop of `lehmer_gcd`: `A, B, C, D` at its end; `cut` as in `Ubig.div`. -/
def lehmerInner (w : Nat) (cut : Nat → Nat) : Nat → List Nat → List Nat → List Nat → List Nat → List Nat → List Nat →
    Option (List Nat × List Nat × List Nat × List Nat)
  | 0, _, _, _, _, _, _ => none
  | fuel+1, A, B, C, D, a, b => do
    let q ← Ubig.div w cut (← Ubig.add w a A) (← Ubig.add w b C)
    let q2 ← Ubig.div w cut (← Ubig.add w a B) (← Ubig.add w b D)
    if !Ubig.eq q q2 then some (A, B, C, D)
    else
      let A' ← Ubig.sub w A (← Ubig.mul w q C)
      let B' ← Ubig.sub w B (← Ubig.mul w q D)
      let a' ← Ubig.sub w a (← Ubig.mul w q b)
      if D ≠ [] then lehmerInner w cut fuel C D A' B' b a' else some (C, D, A', B')

/-- math.hpp:958-989, the outer loop of `lehmer_gcd`; `--m` wraps around at zero. -/
def lehmerOuter (w : Nat) (cut : Nat → Nat) : Nat → Nat → List Nat → List Nat → Option (List Nat)
  | 0, _, _, _ => none
  | fuel+1, m, x, y =>
    if x = [] ∨ y = [] then some x
    else
      let m' := if m = 0 then 2 ^ 64 - 1 else m - 1
      (lehmerInner w cut fuel [1] [] [] [1] (Ubig.shrDigits x m') (Ubig.shrDigits y m')).bind fun r =>
        if r.2.1 = [] then (Ubig.mod w cut x y).bind fun z => lehmerOuter w cut fuel m' y z
        else do
          let x' ← Ubig.add w (← Ubig.mul w r.1 x) (← Ubig.mul w r.2.1 y)
          let y' ← Ubig.add w (← Ubig.mul w r.2.2.1 x) (← Ubig.mul w r.2.2.2 y)
          lehmerOuter w cut fuel m' x' y'

/-- math.hpp:950-990 `lehmer_gcd` of `ubigint`s; `k` is the level of `base_type`. -/
def lehmerGcd (k : Nat) (cut : Nat → Nat) (fuel : Nat) (x y : List Nat) : Option (List Nat) :=
  let p := if Ubig.cmp x y = .lt then (y, x) else (x, y)
  if p.2.length ≤ 1 then gcdLoop k fuel p.1 p.2 0 else lehmerOuter (Bits.bitsOf k) cut fuel p.2.length p.1 p.2

/-- math.hpp:1004: `lehmer_threshold`. -/
def lehmerThreshold : Nat := 256

/-- math.hpp:1000-1013 `gcd` of `ubigint`s; `lehmer` is what `lehmer_gcd` delivers. -/
def gcd (k fuel : Nat) (lehmer : List Nat → List Nat → Option (List Nat)) (x y : List Nat) : Option (List Nat) :=
  if max x.length y.length ≥ lehmerThreshold then lehmer x y else gcdLoop k fuel x y 0

/-! ### the fractions -/

/-- ubigfloat.hpp:32-33: the two members. -/
structure SFrac where
  num : List Nat
  den : List Nat
deriving DecidableEq, Repr

namespace SFrac

/-- ubigfloat.hpp:272-276 `operator+`; the sum of the two temporaries is ubigint.hpp:1137-1140, that is `+=`. -/
def add (w : Nat) (a b : SFrac) : Option SFrac := do
  let m ← Ubig.mul w a.num b.den
  let n ← Ubig.mul w b.num a.den
  let s ← Ubig.addAssign w m n
  let d ← Ubig.mul w a.den b.den
  some ⟨s, d⟩
/-- ubigfloat.hpp:290-294 `operator-`. -/
def sub (w : Nat) (a b : SFrac) : Option SFrac := do
  let m ← Ubig.mul w a.num b.den
  let n ← Ubig.mul w b.num a.den
  let s ← Ubig.sub w m n
  let d ← Ubig.mul w a.den b.den
  some ⟨s, d⟩
/-- ubigfloat.hpp:308-312 `operator*`. -/
def mul (w : Nat) (a b : SFrac) : Option SFrac := do
  let m ← Ubig.mul w a.num b.num
  let d ← Ubig.mul w a.den b.den
  some ⟨m, d⟩
/-- ubigfloat.hpp:319-323 `operator/`. -/
def div (w : Nat) (a b : SFrac) : Option SFrac := do
  let m ← Ubig.mul w a.num b.den
  let d ← Ubig.mul w a.den b.num
  some ⟨m, d⟩
/-- ubigfloat.hpp:388-390 `operator==`. -/
def eq (w : Nat) (a b : SFrac) : Option Bool := do
  let m ← Ubig.mul w a.num b.den
  let n ← Ubig.mul w b.num a.den
  some (Ubig.eq m n)
/-- ubigfloat.hpp:398-400 `operator<=>`. -/
def cmp (w : Nat) (a b : SFrac) : Option Ordering := do
  let m ← Ubig.mul w a.num b.den
  let n ← Ubig.mul w b.num a.den
  some (Ubig.cmp m n)
/-- ubigfloat.hpp:202-207 `reciprocal`. -/
def reciprocal (a : SFrac) : SFrac := ⟨a.den, a.num⟩
/-- ubigfloat.hpp:237-242 `trunc`. -/
def trunc (w : Nat) (cut : Nat → Nat) (a : SFrac) : Option (List Nat) := Ubig.div w cut a.num a.den
/-- ubigfloat.hpp:250-253 `split`. -/
def split (w : Nat) (cut : Nat → Nat) (a : SFrac) : Option (List Nat × SFrac) :=
  (Ubig.divmod w cut a.num a.den).map fun r => (r.1, ⟨r.2, a.den⟩)
/-- ubigfloat.hpp:462-466 `simplify`. -/
def simplify (k fuel : Nat) (cut : Nat → Nat) (lehmer : List Nat → List Nat → Option (List Nat)) (a : SFrac) :
    Option SFrac := do
  let g ← gcd k fuel lehmer a.num a.den
  let n ← Ubig.div (Bits.bitsOf k) cut a.num g
  let d ← Ubig.div (Bits.bitsOf k) cut a.den g
  some ⟨n, d⟩

end SFrac

/-- bigfloat.hpp:40-41: the two members. -/
structure SRat where
  neg : Bool
  num : SFrac
deriving DecidableEq, Repr

namespace SRat

/-- bigfloat.hpp:97-99 `operator-()`. -/
def neg' (a : SRat) : SRat := ⟨!a.neg, a.num⟩

/-- bigfloat.hpp:187-197 `operator+`. -/
def add (w : Nat) (a b : SRat) : Option SRat :=
  if a.neg == b.neg then (a.num.add w b.num).map fun n => ⟨a.neg, n⟩
  else (a.num.cmp w b.num).bind fun c =>
    if c = .gt then (a.num.sub w b.num).map fun n => ⟨a.neg, n⟩ else (b.num.sub w a.num).map fun n => ⟨!a.neg, n⟩

/-- bigfloat.hpp:200-210 `operator-`. -/
def sub (w : Nat) (a b : SRat) : Option SRat :=
  if a.neg != b.neg then (a.num.add w b.num).map fun n => ⟨a.neg, n⟩
  else (a.num.cmp w b.num).bind fun c =>
    if c = .gt then (a.num.sub w b.num).map fun n => ⟨a.neg, n⟩ else (b.num.sub w a.num).map fun n => ⟨!a.neg, n⟩

/-- bigfloat.hpp:213-216 `operator*`. -/
def mul (w : Nat) (a b : SRat) : Option SRat := (a.num.mul w b.num).map fun n => ⟨a.neg != b.neg, n⟩
/-- bigfloat.hpp:219-222 `operator/`. -/
def div (w : Nat) (a b : SRat) : Option SRat := (a.num.div w b.num).map fun n => ⟨a.neg != b.neg, n⟩

/-- bigfloat.hpp:294-297 `operator==`. -/
def eq (w : Nat) (a b : SRat) : Option Bool := if a.neg != b.neg then some false else a.num.eq w b.num
/-- bigfloat.hpp:300-308 `operator<=>`. -/
def cmp (w : Nat) (a b : SRat) : Option Ordering :=
  if a.neg != b.neg then some (if a.neg then .lt else .gt)
  else (a.num.cmp w b.num).map fun result => if a.neg then result.swap else result

/-- bigfloat.hpp:335-337 `simplify`. -/
def simplify (k fuel : Nat) (cut : Nat → Nat) (lehmer : List Nat → List Nat → Option (List Nat)) (a : SRat) :
    Option SRat := (a.num.simplify k fuel cut lehmer).map fun n => ⟨a.neg, n⟩

end SRat
end ELC.Wide
