/-!
`equal`, `compare`, `max` and `min` of native numbers of different types, and of floating point numbers that may be NaN:
`F/base_defs/compare.hpp:58-72, 163-197` and `F/base_defs/min_max.hpp:98-125, 207-234`.

An argument is an integer type and a value of it.  The conversions of the language are part of the model: promotion of types narrower
than `int` (32 bits), then the usual conversions.  `a<=>b` is not allowed by the language if an operand would change its sign (a
narrowing conversion); `compare` then takes `a==b`, `a<b` and `b<a` (compare.hpp:180-191), which are.  Not modelled: `bool`, characters
other than as integers of their width, integers together with floating point numbers.
-/
namespace ELC.Mixed

/-- A type of integers: its bits, and whether it has a sign. -/
structure ITy where
  bits : Nat
  signed : Bool
deriving DecidableEq, Repr

/-- Language: types narrower than `int` become `int`. -/
def promote (t : ITy) : ITy := if t.bits < 32 then ⟨32, true⟩ else t

/-- Language: the type two operands are converted to.  It is also the type of `c?a:b` (min_max.hpp:101, 210). -/
def common (t u : ITy) : ITy :=
  let p := promote t
  let q := promote u
  if p.signed = q.signed then ⟨max p.bits q.bits, p.signed⟩
  else if p.signed then (if p.bits ≤ q.bits then q else p)
  else (if q.bits ≤ p.bits then p else q)

/-- Language: the value converted to a type. -/
def conv (c : ITy) (x : Int) : Int :=
  if c.signed then (x + 2 ^ (c.bits - 1)) % 2 ^ c.bits - 2 ^ (c.bits - 1) else x % 2 ^ c.bits

/-- A number with its type. -/
structure Num where
  ty : ITy
  val : Int
deriving DecidableEq, Repr

/-- compare.hpp:67-70 `equal(a,b)`: `a==b`. -/
def equalNum (a b : Num) : Bool :=
  let c := common a.ty b.ty
  decide (conv c a.val = conv c b.val)

/-- Whether the language allows `a<=>b` (compare.hpp:164): no operand may lose its sign. -/
def spaceship (a b : Num) : Bool :=
  let c := common a.ty b.ty
  c.signed || (!a.ty.signed && !b.ty.signed)

/-- compare.hpp:181-191, 196-198 `compare(a,b)`: `a<=>b` if there is one, else `==`, `<` and `<` the other way round. -/
def compareNum (a b : Num) : Option Ordering :=
  let c := common a.ty b.ty
  let x := conv c a.val
  let y := conv c b.val
  if spaceship a b then some (compare x y)
  else if x = y then some .eq
  else if x < y then some .lt
  else if y < x then some .gt
  else none

/-- min_max.hpp:98-102 `max(a,b)`: `v<0?b:a`, of the common type. -/
def max2 (a b : Num) : Num :=
  let c := common a.ty b.ty
  ⟨c, conv c (if compareNum a b = some .lt then b.val else a.val)⟩

/-- min_max.hpp:103-106 `max(a,b,c...)`: from the right. -/
def maxOf : Num → List Num → Num
  | a, [] => a
  | a, b :: rest => max2 a (maxOf b rest)

/-- min_max.hpp:207-211 `min(a,b)`: `v<0?a:b`, of the common type. -/
def min2 (a b : Num) : Num :=
  let c := common a.ty b.ty
  ⟨c, conv c (if compareNum a b = some .lt then a.val else b.val)⟩

/-- min_max.hpp:212-215 `min(a,b,c...)`: from the right. -/
def minOf : Num → List Num → Num
  | a, [] => a
  | a, b :: rest => min2 a (minOf b rest)

/-! ### Floating point numbers -/

/-- A floating point number as far as its order goes: NaN, or its place in the order (both zeros have the same). -/
inductive Flt where
  | nan
  | num (place : Int)
deriving DecidableEq, Repr

/-- Language: `a<=>b` of floating point numbers; `none` is `unordered`. -/
def compareFlt : Flt → Flt → Option Ordering
  | .num x, .num y => some (compare x y)
  | _, _ => none

/-- min_max.hpp:98-102. -/
def fmax2 (a b : Flt) : Flt := if compareFlt a b = some .lt then b else a
/-- min_max.hpp:103-106. -/
def fmaxOf : Flt → List Flt → Flt
  | a, [] => a
  | a, b :: rest => fmax2 a (fmaxOf b rest)
/-- min_max.hpp:113-122 `max({...})`: `m` is the greatest so far. -/
def fmaxList (m : Flt) : List Flt → Flt
  | [] => m
  | i :: l => fmaxList (if compareFlt m i = some .lt then i else m) l

/-- min_max.hpp:207-211. -/
def fmin2 (a b : Flt) : Flt := if compareFlt a b = some .lt then a else b
/-- min_max.hpp:212-215. -/
def fminOf : Flt → List Flt → Flt
  | a, [] => a
  | a, b :: rest => fmin2 a (fminOf b rest)
/-- min_max.hpp:222-231 `min({...})`. -/
def fminList (m : Flt) : List Flt → Flt
  | [] => m
  | i :: l => fminList (if compareFlt m i = some .gt then i else m) l

end ELC.Mixed
