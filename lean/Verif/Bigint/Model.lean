/-!
Model of the signed big integer, `F/bignum/bignum/bigint.hpp`.

Simplification: the magnitude is a natural number with exact arithmetic (what `ubigint` delivers is the
subject of the `Ubig` modules), and division and remainder by zero give zero as `ubigint` does.  The
operators call each other through overload resolution on lvalues and rvalues; the model keeps that call
graph, with an explicit bound on the number of calls, `none` being "not finished yet".
-/
namespace ELC.Bigint

/-- bigint.hpp:39-41: the two members. -/
structure Big where
  neg : Bool
  num : Nat
deriving DecidableEq, Repr

/-- bigint.hpp:43-48 `bigint(ubigint,bool)`: zero is stored as positive. -/
def make (num : Nat) (neg : Bool) : Big := ⟨if num = 0 then false else neg, num⟩

/-- bigint.hpp:56-57 `bigint(T&&)` for an integer type: sign and magnitude. -/
def ofInt (z : Int) : Big := ⟨decide (z < 0), z.natAbs⟩

/-- ubigint.hpp:881 `operator/`: zero for a zero divisor. -/
def udiv (a b : Nat) : Nat := if b = 0 then 0 else a / b
/-- ubigint.hpp:889 `operator%`: zero for a zero divisor. -/
def umod (a b : Nat) : Nat := if b = 0 then 0 else a % b

/-- bigint.hpp:65-69 `operator==`. -/
def eq (a b : Big) : Bool := if a.neg != b.neg then false else a.num == b.num

/-- bigint.hpp:72-79 `operator<=>`. -/
def cmp (a b : Big) : Ordering :=
  if a.neg != b.neg then (if a.neg then .lt else .gt)
  else
    let tmp := compare a.num b.num
    if a.neg then tmp.swap else tmp

/-- bigint.hpp:115-117 `operator-()const&`. -/
def negL (a : Big) : Big := make a.num (!a.neg)

/-- bigint.hpp:118-121 `operator-()&&`: flips the sign of the object itself, zero or not. -/
def negR (a : Big) : Big := ⟨!a.neg, a.num⟩

/-- bigint.hpp:155-167 `operator-(T&&)const&` for lvalues (`sign` taken as assignable; it is declared
`const`). -/
def sub (a b : Big) : Big :=
  if a.neg != b.neg then make (a.num + b.num) a.neg
  else if a.num < b.num then make (b.num - a.num) (!a.neg)
  else make (a.num - b.num) a.neg

/-- bigint.hpp:220-233 `operator-=`. -/
def subAssign (a b : Big) : Big :=
  let num := if a.neg == b.neg then a.num + b.num else a.num
  if num < b.num then ⟨!a.neg, b.num - num⟩ else ⟨a.neg, num - b.num⟩

/-- bigint.hpp:209-218 `operator+=`, `*this=other-(-move(*this))` resolving to 297-299
`operator-(bigint&&)const&`, that is `(-move(x))+other`, which is 268-270 `operator+(const bigint&)&&`,
that is `+=` again.  `fuel` bounds the number of nested calls. -/
def addAssign : Nat → Big → Big → Option Big
  | 0, _, _ => none
  | fuel+1, a, b =>
    if a.neg == b.neg then some ⟨a.neg, a.num + b.num⟩
    else if a.neg then addAssign fuel (negR (negR a)) b
    else some (subAssign a (negL b))

/-- bigint.hpp:297-299 `operator-(bigint&&)const&`. -/
def subRvalue (fuel : Nat) (a b : Big) : Option Big := addAssign fuel (negR b) a

/-- bigint.hpp:145-153 `operator+(T&&)const&` for two lvalues: `other-(-*this)` and `*this-(-other)`
have an rvalue on the right. -/
def add (fuel : Nat) (a b : Big) : Option Big :=
  if a.neg == b.neg then some (make (a.num + b.num) a.neg)
  else if a.neg then subRvalue fuel b (negL a)
  else subRvalue fuel a (negL b)

/-- bigint.hpp:170-173 `operator*`. -/
def mul (a b : Big) : Big := make (a.num * b.num) (a.neg != b.neg)
/-- bigint.hpp:176-179 `operator/`. -/
def div (a b : Big) : Big := make (udiv a.num b.num) (a.neg != b.neg)
/-- bigint.hpp:182-184 `operator%`. -/
def mod (a b : Big) : Big := make (umod a.num b.num) a.neg
/-- bigint.hpp:236-240 `operator*=`. -/
def mulAssign (a b : Big) : Big := ⟨a.neg != b.neg, a.num * b.num⟩
/-- bigint.hpp:243-247 `operator/=`. -/
def divAssign (a b : Big) : Big := ⟨a.neg != b.neg, udiv a.num b.num⟩
/-- bigint.hpp:250-254 `operator%=`. -/
def modAssign (a b : Big) : Big := ⟨a.neg, umod a.num b.num⟩

/-- bigint.hpp:187-189 `operator<<` for an unsigned count. -/
def shl (a : Big) (n : Nat) : Big := make (a.num * 2 ^ n) a.neg
/-- bigint.hpp:192-194 `operator>>` for an unsigned count. -/
def shr (a : Big) (n : Nat) : Big := make (a.num / 2 ^ n) a.neg
/-- bigint.hpp:263-266 `operator>>=` for an unsigned count. -/
def shrAssign (a : Big) (n : Nat) : Big := ⟨a.neg, a.num / 2 ^ n⟩

/-- bigint.hpp:311-320 `operator++`. -/
def inc (a : Big) : Big :=
  if a.neg then
    let n := a.num - 1
    if n = 0 then ⟨false, n⟩ else ⟨true, n⟩
  else ⟨false, a.num + 1⟩

/-- bigint.hpp:327-335 `operator--`. -/
def dec (a : Big) : Big :=
  let neg := if !a.neg && a.num == 0 then true else a.neg
  if neg then ⟨neg, a.num + 1⟩ else ⟨neg, a.num - 1⟩

/-- bigint.hpp:350-353 `hash`: `h` is the hash of the magnitude, in `bits`-bit arithmetic. -/
def hash (bits : Nat) (h : Nat → Nat) (a : Big) : Nat :=
  if a.neg then h a.num * 7 % 2 ^ bits else h a.num

end ELC.Bigint
