/-!
Iterators: `F/base_defs/iterator.hpp`, with the `begin`, `end`, `rbegin`, `rend` of arrays (`F/base/container/array/defs.hpp:153-191`),
strings (`F/string/defs.hpp:505-544`) and bit sets (`F/base_defs/bitset.hpp:77-98`), and loops `for times(n)`
(`F/base_defs/other.hpp:95-118`, `S/_defs.hpp:144`).

A position is an integer: the index in the string, or the distance of the pointer from the first element of the array (so that the
pointer before the first element, which `rend()` of an array is, has the position -1).  Not modelled: `<=>` of iterators, and
iterators of containers that change their size while a loop runs.
-/
namespace ELC.Iter

/-- The four kinds of iterators: pointers into arrays (`iterator_t<T>`), indices in strings
(`iterator_t<char_T,iterator_base_t>`), and the same read backwards (`reverse_base_t`). -/
inductive Kind where
  | ptr
  | ptrRev
  | idx
  | idxRev
deriving DecidableEq, Repr

/-- `base_iterator_t`, iterator.hpp:284-316: what it holds (`_m`). -/
structure It where
  kind : Kind
  pos : Int
deriving DecidableEq, Repr

/-- `next_getter` iterator.hpp:225-232; for the pointer 227, for the index string/defs.hpp:512; `reverse_base_t::get_next` 101-105 is
`get_before` of what it holds. -/
def nextGetter (i : It) : Int :=
  match i.kind with
  | .ptr => i.pos + 1
  | .idx => i.pos + 1
  | .ptrRev => i.pos - 1
  | .idxRev => i.pos - 1

/-- `before_getter` iterator.hpp:242-249; string/defs.hpp:511; `reverse_base_t::get_before` 96-100. -/
def beforeGetter (i : It) : Int :=
  match i.kind with
  | .ptr => i.pos - 1
  | .idx => i.pos - 1
  | .ptrRev => i.pos + 1
  | .idxRev => i.pos + 1

/-- iterator.hpp:297 `++` in front. -/
def inc (i : It) : It := { i with pos := nextGetter i }
/-- iterator.hpp:298 `--` in front. -/
def dec (i : It) : It := { i with pos := beforeGetter i }
/-- iterator.hpp:299 `++` behind: the answer and the iterator afterwards. -/
def incAfter (i : It) : It × It := (i, inc i)
/-- iterator.hpp:300 `--` behind. -/
def decAfter (i : It) : It × It := (i, dec i)

/-- iterator.hpp:307-308 `while(num--) ++a`. -/
def plusUp (a : It) : Nat → It
  | 0 => a
  | n + 1 => plusUp (inc a) n

/-- iterator.hpp:310-311 `while(num++) --a`, for `num` = -`n`. -/
def plusDown (a : It) : Nat → It
  | 0 => a
  | n + 1 => plusDown (dec a) n

/-- iterator.hpp:301-314 `operator+`. -/
def plus (i : It) (num : Int) : It :=
  match i.kind with
  | .ptr => { i with pos := i.pos + num }
  | _ => if num > 0 then plusUp i num.toNat else plusDown i (-num).toNat

/-- iterator.hpp:315 `operator-`: undefined for the smallest number, whose negation overflows. -/
def minus (i : It) (num : Int) : Option It := if num = -2 ^ 63 then none else some (plus i (-num))

/-- A `size_t` taken for a `ptrdiff_t`. -/
def ptrdiff (n : Nat) : Int := if n < 2 ^ 63 then n else n - 2 ^ 64

/-- `size()-1` of a `size_t`. -/
def sizeMinusOne (n : Nat) : Nat := (n + (2 ^ 64 - 1)) % 2 ^ 64

/-- The kinds of containers with both directions. -/
inductive Container where
  | array
  | string
deriving DecidableEq, Repr

/-- `begin()`: array/defs.hpp:162-164, string/defs.hpp:527. -/
def begin' : Container → It
  | .array => ⟨.ptr, 0⟩
  | .string => ⟨.idx, 0⟩
/-- `end()` with `n` elements: array/defs.hpp:165-167, string/defs.hpp:530. -/
def end' : Container → Nat → It
  | .array, n => ⟨.ptr, n⟩
  | .string, n => ⟨.idx, ptrdiff n⟩
/-- `rbegin()`: array/defs.hpp:182-184 (`_m+size()-1`), string/defs.hpp:539. -/
def rbegin : Container → Nat → It
  | .array, n => ⟨.ptrRev, n - 1⟩
  | .string, n => ⟨.idxRev, ptrdiff (sizeMinusOne n)⟩
/-- `rend()`: array/defs.hpp:185-187, string/defs.hpp:542. -/
def rend : Container → It
  | .array => ⟨.ptrRev, -1⟩
  | .string => ⟨.idxRev, -1⟩

/-- `operator*` (iterator.hpp:263): the element it is at, nothing (undefined) if there is none. -/
def deref {A : Type} (l : List A) (i : It) : Option A := if 0 ≤ i.pos then l[i.pos.toNat]? else none

/-- How a loop ends. -/
inductive Loop (A : Type) where
  /-- it reached the end: the elements it saw, and the elements in the container afterwards -/
  | done (seen : List A) (after : List A)
  /-- something undefined happened after it had seen these -/
  | undefined (seen : List A)
  /-- it still runs -/
  | running (seen : List A)
deriving DecidableEq, Repr

/-- `for(it=first;it!=last;++it) *it=f(*it)`: at most `fuel` rounds. -/
def loop {A : Type} (f : A → A) (last : It) : Nat → It → List A → List A → Loop A
  | 0, _, _, seen => .running seen
  | fuel + 1, i, l, seen =>
    if i.pos = last.pos then .done seen l
    else
      match deref l i with
      | none => .undefined seen
      | some a => loop f last fuel (inc i) (l.set i.pos.toNat (f a)) (seen ++ [a])

/-- A bit set: bitset.hpp:33-39, `bit_num` and `_data` (bytes as numbers below 256). -/
structure Bits where
  num : Nat
  data : List Nat
deriving DecidableEq, Repr

/-- bitset.hpp:41-54, 97 `operator[]` and `arec_t::operator bool`: undefined behind the bytes. -/
def Bits.get (b : Bits) (i : Nat) : Option Bool := (b.data[i / 8]?).map fun x => x.testBit (i % 8)

/-- bitset.hpp:91-96 `begin()` and `end()`. -/
def Bits.begin' : Int := 0
/-- bitset.hpp:92 `end()`: `get_iterator_data_at(-1)`. -/
def Bits.end' : Int := -1

/-- `for(auto x:bits)`: at most `fuel` rounds.  The index is a `size_t` for `operator[]` (bitset.hpp:82). -/
def Bits.loop (b : Bits) : Nat → Int → List Bool → Loop Bool
  | 0, _, seen => .running seen
  | fuel + 1, i, seen =>
    if i = Bits.end' then .done seen seen
    else
      match b.get i.toNat with
      | none => .undefined seen
      | some x => Bits.loop b fuel (i + 1) (seen ++ [x])

/-- A type of integers: its bits, and whether it has a sign. -/
structure IntTy where
  bits : Nat
  signed : Bool
deriving DecidableEq, Repr

/-- other.hpp:102-105 `++loop_times`: undefined on overflow of types with a sign as wide as `int`; narrower ones are widened first and
cut afterwards, types without sign wrap. -/
def IntTy.inc (t : IntTy) (x : Int) : Option Int :=
  if t.signed then
    if x + 1 = 2 ^ (t.bits - 1) then (if 32 ≤ t.bits then none else some (-2 ^ (t.bits - 1))) else some (x + 1)
  else if x + 1 = 2 ^ t.bits then some 0 else some (x + 1)

/-- How a loop `for times(n)` ends. -/
inductive TimesOut (S : Type) where
  | done (s : S)
  | undefined (s : S)
  | running (s : S)
deriving DecidableEq, Repr

/-- `for times(n) body` (_defs.hpp:144, other.hpp:95-118): the body gets a copy of `loop_times` (a structured binding by value) and acts on
the state `S`.  At most `fuel` rounds. -/
def timesLoop {S : Type} (t : IntTy) (endValue : Int) (body : Int → S → S) : Nat → Int → S → TimesOut S
  | 0, _, s => .running s
  | fuel + 1, i, s =>
    if i = endValue then .done s
    else
      match t.inc i with
      | none => .undefined (body i s)
      | some j => timesLoop t endValue body fuel j (body i s)

/-- The whole loop: `loop_times` starts with 0 (other.hpp:98). -/
def times {S : Type} (t : IntTy) (n : Int) (body : Int → S → S) (s : S) (fuel : Nat) : TimesOut S := timesLoop t n body fuel 0 s

end ELC.Iter
