/-!
Model of assigning elements of arrays to each other: `copy_assign`, `move_assign` and `move_assign.may_overlap` of
`F/base_defs/memory/lifetime/defs.hpp` (`lifetime` below).

The memory is the list of the elements in it; a pointer is an index.  `none` is undefined behaviour: memory outside is
read or written, an object is read after its end, or `memcpy` is given ranges that overlap.  Values of elements that were
assigned are equal to those they were assigned from.  Exceptions are not modelled here (see `Verif.Throw`).
-/
namespace ELC.Assign

/-- What the type traits of the C++ library say of an element type (lifetime:54-57, 46-52, 71-77). -/
structure Traits where
  assignAble : Bool
  assignTrivial : Bool
  copyAble : Bool
  copyTrivial : Bool
  endAble : Bool
  endTrivial : Bool

/-- How elements of a type are assigned. -/
inductive Way where
  /-- `memcpy` of the bytes -/
  | bytes
  /-- the type's own assignment, `a=b` -/
  | own
  /-- `a` is destructed, and made anew as a copy of `b` -/
  | renew
  deriving DecidableEq, Repr

/-- lifetime:584-587 `copy_assign.r_able`. -/
def rAble (t : Traits) : Bool :=
  if t.assignAble then t.assignTrivial || !(t.copyTrivial && t.endTrivial) else false

/-- lifetime:593-595 `copy_assign.trivial`. -/
def isTrivial (t : Traits) : Bool := if rAble t then t.assignTrivial else t.copyTrivial && t.endTrivial

/-- lifetime:588-589 `copy_assign.able`, 607-616 and 598-606: the way arrays of a type are assigned, `none` if the call does
not compile. -/
def way (t : Traits) : Option Way :=
  if (if rAble t then true else t.copyAble && t.endAble) then
    some (if isTrivial t then .bytes else if rAble t then .own else .renew)
  else none

variable {α : Type}

/-- lifetime:597-606 `copy_assign(a,b)`, of the elements at `a` and `b`.  Destructing and making anew reads the object after
its end if it is assigned to itself. -/
def copyOne (k : Way) (mem : List α) (a b : Nat) : Option (List α) :=
  match mem[b]? with
  | none => none
  | some v =>
    if a < mem.length then
      match k with
      | .renew => if a = b then none else some (mem.set a v)
      | _ => some (mem.set a v)
    else none

/-- lifetime:612-613, the loop of `copy_assign[n](to,from)`, the last element first. -/
def copyLoop (k : Way) (mem : List α) (dst src : Nat) : Nat → Option (List α)
  | 0 => some mem
  | n + 1 =>
    match copyOne k mem (dst + n) (src + n) with
    | none => none
    | some m => copyLoop k m dst src n

/-- `std::memmove` of `n` elements. -/
def memmove (mem : List α) (dst src n : Nat) : Option (List α) :=
  if dst + n ≤ mem.length ∧ src + n ≤ mem.length then
    some (mem.take dst ++ (mem.drop src).take n ++ mem.drop (dst + n))
  else none

/-- `std::memcpy` of `n` elements: the ranges must not overlap. -/
def memcpy (mem : List α) (dst src n : Nat) : Option (List α) :=
  if n ≠ 0 ∧ dst < src + n ∧ src < dst + n then none else memmove mem dst src n

/-- lifetime:607-615, 632-648 `copy_assign[n](to,from)`. -/
def copyAssign (k : Way) (mem : List α) (dst src n : Nat) : Option (List α) :=
  match k with
  | .bytes => memcpy mem dst src n
  | k => copyLoop k mem dst src n

/-- lifetime:679-687, 695-708 `move_assign[n](to,from)`; `triv` is `move_assign.trivial`.  For other types the call of
`base_call(T&,T&&)` with `from[size]` deduces two different `T` and does not compile: the outer `none`. -/
def moveAssign (triv : Bool) (mem : List α) (dst src n : Nat) : Option (Option (List α)) :=
  if triv then some (memcpy mem dst src n) else none

/-- lifetime:711-721, 722-735 `move_assign.may_overlap[n](to,from)`.  For types that are not trivial the `base_call` with two
arguments is hidden and the call does not compile: the outer `none`. -/
def mayOverlap (triv : Bool) (mem : List α) (dst src n : Nat) : Option (Option (List α)) :=
  if triv then some (memmove mem dst src n) else none

/-- Where the value of a filling is: an element of the memory, or an object elsewhere. -/
inductive Source (α : Type) where
  | at (i : Nat)
  | value (v : α)

/-- lifetime:597-606 with a reference to either: what is assigned to the element at `a`. -/
def fillOne (k : Way) (mem : List α) (a : Nat) : Source α → Option (List α)
  | .at b => copyOne k mem a b
  | .value v => if a < mem.length then some (mem.set a v) else none

/-- lifetime:616-625, 649-656 `copy_assign[n](to,value)`: each element is assigned the value, the last one first; the value is
read anew each time.  Bytes are filled by lifetime:88-101, which does the same where `Verif.Fill` says so. -/
def fill (k : Way) (mem : List α) (dst : Nat) (s : Source α) : Nat → Option (List α)
  | 0 => some mem
  | n + 1 =>
    match fillOne k mem (dst + n) s with
    | none => none
    | some m => fill k m dst s n

end ELC.Assign
