import Mathlib.Data.List.Basic

/-
Arrays of elements whose constructors throw.  Models F/base_defs/memory/lifetime/defs.hpp:131-175, 209-262, 353-362, 400-410,
461-478, 507-531 (making, destroying and moving elements), F/base/memory/get/defs.hpp:64-125, 267-330, 480-578, 610-669,
685-712, 760-783, 868-887 (blocks of elements) and F/base/container/array/defs.hpp:46-138, 244-262, with their exceptions and
`noexcept` specifications.  Area Arr models the same code when nothing is thrown.

Simplifications: the element type has constructors, a destructor and moves that are not trivial; its destructor does not
throw, and a constructor that throws leaves no element (and, for a move, the source as it was).  Allocation succeeds
(alloc/defs.hpp:112 retries for ever).  There is one array; the elements copied from are not its own.
-/
namespace ELC.Throw

variable {A : Type}

/-- What a cell of a block holds: nothing, an element, or an element that was moved from. -/
inductive Cell (A : Type) where
  | raw
  | live (v : A)
  | husk
deriving DecidableEq

/-- Is there an element that has to be destroyed? -/
def Cell.alive : Cell A → Bool
  | .raw => false
  | _ => true

/-- Which constructors of the element type may throw (lifetime/defs.hpp:40-85 `construct_nothrow` and so on, negated). -/
structure Traits where
  dflt : Bool
  copy : Bool
  move : Bool
deriving DecidableEq

/-- When the exception comes: the number of constructor calls, of those that may throw, that are still all right. -/
abbrev Clock := Nat

/-- One constructor call; `none`: it throws. -/
def tick (may : Bool) (t : Clock) : Option Clock :=
  if may then (match t with
    | 0 => none
    | t + 1 => some t)
  else some t

/-- What a part of an operation leads to, with the memory it has worked on. -/
inductive Res (S : Type) where
  | done (s : S) (t : Clock)
  | thrown (s : S)
  /-- not defined in C++ -/
  | undef

/-- lifetime/defs.hpp:144-147, 353-362, 400-410: elements made in a block from cell `i` on, the last one first.  The values
are given the last one first, too. -/
def makeLoop (may : Bool) (i : Nat) : List A → List (Cell A) → Clock → Res (List (Cell A))
  | [], c, t => .done c t
  | x :: r, c, t =>
    match tick may t with
    | none => .thrown c
    | some t => makeLoop may i r (c.set (i + r.length) (.live x)) t

/-- Elements made with these values. -/
def make (may : Bool) (i : Nat) (vs : List A) (c : List (Cell A)) (t : Clock) : Res (List (Cell A)) :=
  makeLoop may i vs.reverse c t

/-- lifetime/defs.hpp:240-248 `destruct[n]`, the last one first; `none`: there is no element to be destroyed. -/
def destruct (i : Nat) : Nat → List (Cell A) → Option (List (Cell A))
  | 0, c => some c
  | n + 1, c =>
    match c[i + n]? with
    | some x => if x.alive then destruct i n (c.set (i + n) .raw) else none
    | none => none

/-- lifetime/defs.hpp:461-478 `move_construct[n]`, from cell `j` of a block to cell `i` of another one, the last one first. -/
def moveLoop (may : Bool) (i j : Nat) : Nat → List (Cell A) → List (Cell A) → Clock → Res (List (Cell A) × List (Cell A))
  | 0, src, dst, t => .done (src, dst) t
  | n + 1, src, dst, t =>
    match src[j + n]? with
    | none => .undef
    | some .raw => .undef
    | some x =>
      match tick may t with
      | none => .thrown (src, dst)
      | some t => moveLoop may i j n (src.set (j + n) .husk) (dst.set (i + n) x) t

/-- lifetime/defs.hpp:519-531 `move[n]`: moved, then the sources are destroyed. -/
def move (may : Bool) (i j n : Nat) (src dst : List (Cell A)) (t : Clock) : Res (List (Cell A) × List (Cell A)) :=
  match moveLoop may i j n src dst t with
  | .done (src, dst) t =>
    match destruct j n src with
    | some src => .done (src, dst) t
    | none => .undef
  | r => r

/-- The memory: the block the array points to (no cells: the null pointer), blocks nothing points to any more, and elements
that were in blocks when these were given back. -/
structure St (A : Type) where
  arr : List (Cell A)
  lost : List (List (Cell A))
  dead : List (Cell A)

/-- No array yet. -/
def St.new : St A := ⟨[], [], []⟩

/-- alloc/defs.hpp:132-142 `free`: what is still in the block is never destroyed. -/
def St.free (s : St A) (c : List (Cell A)) : St A := { s with dead := s.dead ++ c.filter Cell.alive }

/-- A block of `n` cells. -/
def block (n : Nat) : List (Cell A) := List.replicate n .raw

/-- get/defs.hpp:64-85 `alloc_size_grow`. -/
def grow (may : Bool) (s : St A) (toSize : Nat) (t : Clock) : Res (St A) :=
  match move may 0 0 s.arr.length s.arr (block toSize) t with
  | .done (src, dst) t => .done { s.free src with arr := dst } t
  | .thrown (src, dst) => .thrown { s.free dst with arr := src }
  | .undef => .undef

/-- get/defs.hpp:93-125 `alloc_size_grow_with_insert_uninitialized_data`. -/
def growInsert (may : Bool) (s : St A) (pos n : Nat) (t : Clock) : Res (St A) :=
  match move may 0 0 pos s.arr (block (s.arr.length + n)) t with
  | .done (src, dst) t =>
    match move may (pos + n) pos (s.arr.length - pos) src dst t with
    | .done (src, dst) t => .done { s.free src with arr := dst } t
    | .thrown (src, dst) => .thrown { s.free dst with arr := src }
    | .undef => .undef
  | .thrown (src, dst) => .thrown { s.free dst with arr := src }
  | .undef => .undef

/-- get/defs.hpp:267-295 `forward_alloc_size_cut`. -/
def forwardCut (may : Bool) (s : St A) (toSize : Nat) (t : Clock) : Res (St A) :=
  match move may 0 (s.arr.length - toSize) toSize s.arr (block toSize) t with
  | .done (src, dst) t => .done { s.free src with arr := dst } t
  | .thrown (src, dst) => .thrown { s.free dst with arr := src }
  | .undef => .undef

/-- get/defs.hpp:302-330 `forward_alloc_size_grow`. -/
def forwardGrow (may : Bool) (s : St A) (toSize : Nat) (t : Clock) : Res (St A) :=
  match move may (toSize - s.arr.length) 0 s.arr.length s.arr (block toSize) t with
  | .done (src, dst) t => .done { s.free src with arr := dst } t
  | .thrown (src, dst) => .thrown { s.free dst with arr := src }
  | .undef => .undef

/-- Elements made in the block of the array. -/
def St.make (may : Bool) (i : Nat) (vs : List A) (s : St A) (t : Clock) : Res (St A) :=
  match Throw.make may i vs s.arr t with
  | .done c t => .done { s with arr := c } t
  | .thrown c => .thrown { s with arr := c }
  | .undef => .undef

/-- get/defs.hpp:497-500, 516-524, 534-542, 880-887: a new block with elements, for `get<T>()`, `get<T>[n]`, `as_array` and
`copy_get`.  If one throws, the pointer to the block is forgotten. -/
def fresh (may : Bool) (vs : List A) (s : St A) (t : Clock) : Res (List (Cell A) × St A) :=
  match Throw.make may 0 vs (block vs.length) t with
  | .done c t => .done (c, s) t
  | .thrown c => .thrown ([], { s with lost := c :: s.lost })
  | .undef => .undef

/-- get/defs.hpp:610-632 `unget`. -/
def unget (s : St A) : Option (St A) :=
  (destruct 0 s.arr.length s.arr).map fun c => { s.free c with arr := [] }

/-- What a program does with its array.  `Func` constructors are those of `make`, and calls of the function. -/
inductive Op (A : Type) where
  /-- `a=array_t(size)` -/
  | assignSize (n : Nat)
  /-- `a=array_t(size,elem)` -/
  | assignFill (n : Nat) (v : A)
  /-- `a=` a list, a view or another array -/
  | assign (vs : List A)
  | resize (n : Nat)
  | forwardResize (n : Nat)
  | insert (pos n : Nat)
  | insertFill (pos n : Nat) (v : A)
  | insertData (pos : Nat) (vs : List A)
  | pushBack (v : A)
  /-- `push_back` of a temporary -/
  | pushBackMove (v : A)
  /-- `+=` of a view -/
  | append (vs : List A)
  /-- the destructor -/
  | destroy

/-- How an operation ends: `terminate` is the end of the program, because an exception leaves a `noexcept` function. -/
inductive Out (A : Type) where
  | done (s : St A)
  | thrown (s : St A)
  | terminate
  | undef

/-- The end of a function that is `noexcept` under that condition. -/
def close (nx : Bool) : Res (St A) → Out A
  | .done s _ => .done s
  | .thrown s => if nx then .terminate else .thrown s
  | .undef => .undef

/-- One part after the other. -/
def andThen (r : Res (St A)) (f : St A → Clock → Res (St A)) : Res (St A) :=
  match r with
  | .done s t => f s t
  | r => r

/-- array/defs.hpp:91-102: what was made in a temporary array is exchanged with this one, and destroyed with the temporary. -/
def replace (s : St A) : Res (List (Cell A) × St A) → Res (St A)
  | .done (c, _) t => match unget s with
    | some s => .done { s with arr := c } t
    | none => .undef
  | .thrown (_, s) => .thrown s
  | .undef => .undef

/-- The `noexcept` condition of each function; the destructor of the elements does not throw.
array/defs.hpp:51-53 with get/defs.hpp:490-491; array/defs.hpp:54-56 (the same condition, although elements are copied);
58-60, 70-73, 91-93 with get/defs.hpp:530-532, 871-874; array/defs.hpp:110-117 with get/defs.hpp:645-648, 753-756;
array/defs.hpp:118-127 with get/defs.hpp:685-688 (the same for default elements and for copies);
array/defs.hpp:244-249, 253-257 with get/defs.hpp:545-549; 99. -/
def nx (T : Traits) : Op A → Bool
  | .assignSize _ => !T.dflt
  | .assignFill _ _ => !T.dflt
  | .assign _ => !T.copy
  | .resize _ => !T.dflt && !T.move
  | .forwardResize _ => !T.dflt && !T.move
  | .insert _ _ => !T.dflt && !T.move
  | .insertFill _ _ _ => !T.dflt && !T.move
  | .insertData _ _ => !T.dflt && !T.move
  | .pushBack _ => !T.copy && !T.move
  | .pushBackMove _ => !T.copy && !T.move
  | .append _ => !T.copy && !T.move
  | .destroy => true

/-- What each function does; `d` is the default element.  Positions behind the end are not defined. -/
def body (T : Traits) (d : A) (s : St A) (t : Clock) : Op A → Res (St A)
  /- array/defs.hpp:51-53 -/
  | .assignSize n => replace s (fresh T.dflt (List.replicate n d) s t)
  /- array/defs.hpp:54-56 -/
  | .assignFill n v => replace s (fresh T.copy (List.replicate n v) s t)
  /- array/defs.hpp:58-73, 91-95 -/
  | .assign vs => replace s (fresh T.copy vs s t)
  /- get/defs.hpp:655-668 -/
  | .resize n =>
    if s.arr.length = n then .done s t
    else if n < s.arr.length then
      match destruct n (s.arr.length - n) s.arr with
      | some c => .done { s.free (c.drop n) with arr := c.take n } t
      | none => .undef
    else if s.arr.length ≠ 0 then
      andThen (grow T.move s n t) fun s' t => s'.make T.dflt s.arr.length (List.replicate (n - s.arr.length) d) t
    else
      match fresh T.dflt (List.replicate n d) s t with
      | .done (c, s) t => .done { s with arr := c } t
      | .thrown (_, s) => .thrown s
      | .undef => .undef
  /- get/defs.hpp:769-782 -/
  | .forwardResize n =>
    if s.arr.length = n then .done s t
    else if n < s.arr.length then
      match destruct 0 (s.arr.length - n) s.arr with
      | some c => forwardCut T.move { s with arr := c } n t
      | none => .undef
    else if s.arr.length ≠ 0 then
      andThen (forwardGrow T.move s n t) fun s' t => s'.make T.dflt 0 (List.replicate (n - s.arr.length) d) t
    else
      match fresh T.dflt (List.replicate n d) s t with
      | .done (c, s) t => .done { s with arr := c } t
      | .thrown (_, s) => .thrown s
      | .undef => .undef
  /- get/defs.hpp:689-696 -/
  | .insert pos n =>
    if n = 0 then .done s t
    else if s.arr.length < pos then .undef
    else andThen (growInsert T.move s pos n t) fun s t => s.make T.dflt pos (List.replicate n d) t
  /- get/defs.hpp:697-704 -/
  | .insertFill pos n v =>
    if n = 0 then .done s t
    else if s.arr.length < pos then .undef
    else andThen (growInsert T.move s pos n t) fun s t => s.make T.copy pos (List.replicate n v) t
  /- get/defs.hpp:705-712 -/
  | .insertData pos vs =>
    if vs.length = 0 then .done s t
    else if s.arr.length < pos then .undef
    else andThen (growInsert T.move s pos vs.length t) fun s t => s.make T.copy pos vs t
  /- get/defs.hpp:560-567 -/
  | .pushBack v => andThen (grow T.move s (s.arr.length + 1) t) fun s' t => s'.make T.copy s.arr.length [v] t
  /- get/defs.hpp:568-575 -/
  | .pushBackMove v => andThen (grow T.move s (s.arr.length + 1) t) fun s' t => s'.make T.move s.arr.length [v] t
  /- get/defs.hpp:551-559 -/
  | .append vs => andThen (grow T.move s (s.arr.length + vs.length) t) fun s' t => s'.make T.copy s.arr.length vs t
  /- array/defs.hpp:99-101 -/
  | .destroy => match unget s with
    | some s => .done s t
    | none => .undef

/-- One operation, with the moment of the exception. -/
def exec (T : Traits) (d : A) (s : St A) (t : Clock) (o : Op A) : Out A := close (nx T o) (body T d s t o)

end ELC.Throw
