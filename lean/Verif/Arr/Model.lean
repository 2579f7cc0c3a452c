/-!
Arrays, and the block operations under them: `F/base/container/array/defs.hpp`, `F/base/memory/get/defs.hpp`,
`F/base/memory/alloc/defs.hpp`, `F/base_defs/memory/lifetime/defs.hpp`.

Memory is a set of blocks of cells.  A cell is unused, holds a living element, or holds an element that was moved from: still
alive, its value unspecified.  Everything C++ leaves undefined, and everything that loses an element without destroying it, is a
`Fault`.  Sizes and positions are natural numbers; subtractions that wrap in the code are written with the wrap as a fault.
Allocation succeeds (`alloc` retries for ever, alloc/defs.hpp:112); exceptions from element constructors are not modelled.
-/
namespace ELC.Arr

variable {A : Type}

/-- What a cell of a block holds. -/
inductive Cell (A : Type) where
  | raw
  | live (v : A)
  | husk
deriving DecidableEq

/-- Is there an element that has to be destroyed? -/
def Cell.alive : Cell A → Bool
  | .raw => false
  | _ => true

/-- What can go wrong. -/
inductive Fault where
  /-- access through a null pointer -/
  | null
  /-- access to a block that was given back -/
  | useAfterFree
  /-- a block given back twice -/
  | freeTwice
  /-- access outside the block -/
  | bounds
  /-- an element made on top of a living one -/
  | overLive
  /-- an element destroyed, or moved, that is not there -/
  | notAlive
  /-- the value of an unused cell read -/
  | rawRead
  /-- a block given back with living elements in it -/
  | leak
  /-- `memcpy` between overlapping ranges -/
  | overlap
deriving DecidableEq

/-- The element types told apart: all operations trivial (`int`, characters); all but the default constructor trivial (a structure
with member initialisers); none trivial.  Types that mix triviality otherwise are left out. -/
inductive Kind where
  | plain
  | init
  | object
deriving DecidableEq

/-- Does the type have a destructor, and no bytewise copies?  (lifetime/defs.hpp:36-87, 228.) -/
def Kind.managed : Kind → Bool
  | .object => true
  | _ => false

/-- Memory.  `next` is a name no block has had. -/
structure Heap (A : Type) where
  blocks : Nat → Option (List (Cell A))
  next : Nat

/-- A pointer to the start of a block, or `null_ptr`. -/
abbrev Ptr := Option Nat

/-- What an operation gives. -/
abbrev R (B : Type) := Except Fault B

/-- Memory with one block changed, made or given back. -/
def Heap.put (h : Heap A) (b : Nat) (c : Option (List (Cell A))) : Heap A :=
  { h with blocks := fun x => if x = b then c else h.blocks x }

/-- The cells of a block. -/
def Heap.cells (h : Heap A) : Ptr → R (List (Cell A))
  | none => .error .null
  | some b => match h.blocks b with
    | none => .error .useAfterFree
    | some cs => .ok cs

/-- A cell read. -/
def Heap.read (h : Heap A) (p : Ptr) (i : Nat) : R (Cell A) :=
  match h.cells p with
  | .error f => .error f
  | .ok cs => match cs[i]? with
    | none => .error .bounds
    | some c => .ok c

/-- A cell written. -/
def Heap.write (h : Heap A) (p : Ptr) (i : Nat) (c : Cell A) : R (Heap A) :=
  match p, h.cells p with
  | _, .error f => .error f
  | none, .ok _ => .error .null
  | some b, .ok cs => if i < cs.length then .ok (h.put b (some (cs.set i c))) else .error .bounds

/-- `n` cells read. -/
def Heap.readRange (h : Heap A) (p : Ptr) (i n : Nat) : R (List (Cell A)) :=
  if n = 0 then .ok []
  else match h.cells p with
    | .error f => .error f
    | .ok cs => if i + n ≤ cs.length then .ok ((cs.drop i).take n) else .error .bounds

/-- Cells written from `i` on. -/
def Heap.writeRange (h : Heap A) (p : Ptr) (i : Nat) (l : List (Cell A)) : R (Heap A) :=
  if l = [] then .ok h
  else match p, h.cells p with
    | _, .error f => .error f
    | none, .ok _ => .error .null
    | some b, .ok cs =>
      if i + l.length ≤ cs.length then .ok (h.put b (some (cs.take i ++ l ++ cs.drop (i + l.length)))) else .error .bounds

/-! ## Blocks: alloc/defs.hpp -/

/-- alloc/defs.hpp:106-115 `alloc<T>(size)`. -/
def alloc (h : Heap A) (n : Nat) : Ptr × Heap A :=
  if n ≠ 0 then
    (some h.next, { blocks := fun x => if x = h.next then some (List.replicate n .raw) else h.blocks x, next := h.next + 1 })
  else (none, h)

/-- alloc/defs.hpp:132-142 `free`. -/
def free (k : Kind) (h : Heap A) (p : Ptr) : R (Heap A) :=
  match p with
  | none => .ok h
  | some b => match h.blocks b with
    | none => .error .freeTwice
    | some cs => if k.managed && cs.any Cell.alive then .error .leak else .ok (h.put b none)

/-- alloc/defs.hpp:182-200 `get_size_of_alloc`. -/
def sizeOf (h : Heap A) (p : Ptr) : R Nat :=
  match p with
  | none => .ok 0
  | some b => match h.blocks b with
    | none => .error .useAfterFree
    | some cs => .ok cs.length

/-- alloc/defs.hpp:146-170 `realloc`.  `mv` says whether the block moves when it grows: the allocator is free to do either
(`S/APIs/alloc.hpp`:225-231; when it shrinks it has to stay). -/
def realloc (k : Kind) (mv : Bool) (h : Heap A) (p : Ptr) (n : Nat) : R (Ptr × Heap A) :=
  if n ≠ 0 then
    match p with
    | some b => match h.blocks b with
      | none => .error .useAfterFree
      | some cs =>
        if n ≤ cs.length then
          if k.managed && (cs.drop n).any Cell.alive then .error .leak else .ok (some b, h.put b (some (cs.take n)))
        else
          let cs' := cs ++ List.replicate (n - cs.length) .raw
          if mv then
            .ok (some h.next, { blocks := fun x => if x = h.next then some cs' else if x = b then none else h.blocks x,
                                next := h.next + 1 })
          else .ok (some b, h.put b (some cs'))
    | none => .ok (alloc h n)
  else match free k h p with
    | .error f => .error f
    | .ok h => .ok (none, h)

/-! ## Elements: lifetime/defs.hpp -/

/-- An element made in a cell: `new(_to)T(…)`. -/
def make (k : Kind) (h : Heap A) (p : Ptr) (i : Nat) (c : Cell A) : R (Heap A) :=
  match h.read p i with
  | .error f => .error f
  | .ok old => if k.managed && old.alive then .error .overLive else h.write p i c

/-- lifetime/defs.hpp:144-147 `array_construct_t::base_call`: the same element made `n` times, from the back. -/
def makeLoop (k : Kind) (p : Ptr) (i : Nat) (c : Cell A) : Nat → Heap A → R (Heap A)
  | 0, h => .ok h
  | n + 1, h => match make k h p (i + n) c with
    | .error f => .error f
    | .ok h => makeLoop k p i c n h

/-- lifetime/defs.hpp:164-169 `construct<T>[ptr][n]()`: nothing is done when the default constructor is trivial.  `d` is the
default element. -/
def construct (k : Kind) (d : A) (h : Heap A) (p : Ptr) (i n : Nat) : R (Heap A) :=
  match k with
  | .plain => .ok h
  | _ => makeLoop k p i (.live d) n h

/-- lifetime/defs.hpp:242-248 `destruct[n](ptr)`, from the back. -/
def destructLoop (p : Ptr) (i : Nat) : Nat → Heap A → R (Heap A)
  | 0, h => .ok h
  | n + 1, h => match h.read p (i + n) with
    | .error f => .error f
    | .ok c =>
      if c.alive then match h.write p (i + n) .raw with
        | .error f => .error f
        | .ok h => destructLoop p i n h
      else .error .notAlive

/-- lifetime/defs.hpp:242-262. -/
def destruct (k : Kind) (h : Heap A) (p : Ptr) (i n : Nat) : R (Heap A) :=
  if k.managed then destructLoop p i n h else .ok h

/-- `memmove`. -/
def memmove (h : Heap A) (p : Ptr) (i : Nat) (q : Ptr) (j n : Nat) : R (Heap A) :=
  match h.readRange q j n with
  | .error f => .error f
  | .ok l => h.writeRange p i l

/-- `memcpy`: the ranges must not overlap. -/
def memcpy (h : Heap A) (p : Ptr) (i : Nat) (q : Ptr) (j n : Nat) : R (Heap A) :=
  if p = q ∧ i < j + n ∧ j < i + n then .error .overlap else memmove h p i q j n

/-- Elements to copy from: outside all the blocks, where nothing happens to them, or in a block. -/
inductive Src (A : Type) where
  | out (vs : List A)
  | at_ (p : Ptr) (j : Nat)

/-- An element of the source. -/
def Src.read (h : Heap A) : Src A → Nat → R (Cell A)
  | .out vs, i => match vs[i]? with
    | none => .error .bounds
    | some v => .ok (.live v)
  | .at_ p j, i => h.read p (j + i)

/-- The first `n` elements of the source. -/
def Src.readRange (h : Heap A) : Src A → Nat → R (List (Cell A))
  | .out vs, n => if n ≤ vs.length then .ok ((vs.take n).map .live) else .error .bounds
  | .at_ p j, n => h.readRange p j n

/-- Does the source overlap `n` cells of a block? -/
def Src.meets : Src A → Ptr → Nat → Nat → Bool
  | .out _, _, _, _ => false
  | .at_ q j, p, i, n => decide (p = q ∧ i < j + n ∧ j < i + n)

/-- lifetime/defs.hpp:357-361, the loop of `copy_construct[n](to,from)`. -/
def copyLoop (k : Kind) (p : Ptr) (i : Nat) (s : Src A) : Nat → Heap A → R (Heap A)
  | 0, h => .ok h
  | n + 1, h => match s.read h n with
    | .error f => .error f
    | .ok c => if !c.alive then .error .rawRead else match make k h p (i + n) c with
      | .error f => .error f
      | .ok h => copyLoop k p i s n h

/-- lifetime/defs.hpp:353-362 `copy_construct[n](note::to(ptr),note::from(data))`. -/
def copyConstruct (k : Kind) (h : Heap A) (p : Ptr) (i : Nat) (s : Src A) (n : Nat) : R (Heap A) :=
  if k.managed then copyLoop k p i s n h
  else if s.meets p i n then .error .overlap
  else match s.readRange h n with
    | .error f => .error f
    | .ok l => h.writeRange p i l

/-- lifetime/defs.hpp:407-408: one element copied to `n` cells, from the back; it is read anew each time. -/
def fillLoop (k : Kind) (p : Ptr) (i : Nat) (s : Src A) : Nat → Heap A → R (Heap A)
  | 0, h => .ok h
  | n + 1, h => match s.read h 0 with
    | .error f => .error f
    | .ok c => if !c.alive then .error .rawRead else match make k h p (i + n) c with
      | .error f => .error f
      | .ok h => fillLoop k p i s n h

/-- lifetime/defs.hpp:400-410 `copy_construct[n](ptr,value)` and 89-101, 155-162 (for types whose values `memset` and `wmemset` repeat): one element to `n` cells. -/
def fill (k : Kind) (h : Heap A) (p : Ptr) (i : Nat) (s : Src A) (n : Nat) : R (Heap A) :=
  if k.managed then fillLoop k p i s n h
  else match s.read h 0 with
    | .error f => .error f
    | .ok c => if !c.alive then .error .rawRead else h.writeRange p i (List.replicate n c)

/-- lifetime/defs.hpp:471-474, the loop of `move_construct[n](to,from)`, from the back: the source is left moved from. -/
def moveLoop (k : Kind) (p : Ptr) (i : Nat) (q : Ptr) (j : Nat) : Nat → Heap A → R (Heap A)
  | 0, h => .ok h
  | n + 1, h => match h.read q (j + n) with
    | .error f => .error f
    | .ok c => if !c.alive then .error .notAlive else match make k h p (i + n) c with
      | .error f => .error f
      | .ok h => match h.write q (j + n) .husk with
        | .error f => .error f
        | .ok h => moveLoop k p i q j n h

/-- lifetime/defs.hpp:524-531 `move[n](to,from)`: the elements moved, then the sources destroyed. -/
def moveN (k : Kind) (h : Heap A) (p : Ptr) (i : Nat) (q : Ptr) (j n : Nat) : R (Heap A) :=
  if k.managed then match moveLoop k p i q j n h with
    | .error f => .error f
    | .ok h => destructLoop q j n h
  else memcpy h p i q j n

/-! ## Blocks with elements: get/defs.hpp -/

/-- get/defs.hpp:54-57 `alloc_size_cut`. -/
def sizeCut (k : Kind) (h : Heap A) (p : Ptr) (n : Nat) : R (Ptr × Heap A) := realloc k false h p n

/-- get/defs.hpp:64-85 `alloc_size_grow`. -/
def sizeGrow (k : Kind) (mv : Bool) (h : Heap A) (p : Ptr) (n : Nat) : R (Ptr × Heap A) :=
  if k.managed then do
    let from_ ← sizeOf h p
    let t := alloc h n
    let h ← moveN k t.2 t.1 0 p 0 from_
    let h ← free k h p
    return (t.1, h)
  else realloc k mv h p n

/-- `a - b` on sizes, where the code has to be sure that it does not wrap: what follows a wrap is a loop or copy of about
2^64 elements. -/
def minus (a b : Nat) : R Nat := if b ≤ a then .ok (a - b) else .error .bounds

/-- get/defs.hpp:93-125 and 137-189 `alloc_size_grow_with_insert_uninitialized_data`, with `to_size` given. -/
def growInsert (k : Kind) (mv : Bool) (h : Heap A) (p : Ptr) (toSize pos n : Nat) : R (Ptr × Heap A) := do
  let from_ ← sizeOf h p
  let after ← minus from_ pos
  if k.managed then
    let t := alloc h toSize
    let h ← moveN k t.2 t.1 0 p 0 pos
    let h ← moveN k h t.1 (pos + n) p pos after
    let h ← free k h p
    return (t.1, h)
  else
    let (q, h) ← realloc k mv h p toSize
    let h ← memmove h q (pos + n) q pos after
    return (q, h)

/-- get/defs.hpp:201-260 `part_used_block_alloc_size_grow_with_insert_uninitialized_data`. -/
def partGrowInsert (k : Kind) (mv : Bool) (h : Heap A) (p : Ptr) (toSize pos n used : Nat) : R (Ptr × Heap A) := do
  let after ← minus used pos
  if k.managed then
    let t := alloc h toSize
    let h ← moveN k t.2 t.1 (pos + n) p pos after
    let h ← moveN k h t.1 0 p 0 pos
    let h ← free k h p
    return (t.1, h)
  else
    let (q, h) ← realloc k mv h p toSize
    let h ← memmove h q (pos + n) q pos after
    return (q, h)

/-- get/defs.hpp:267-295 `forward_alloc_size_cut`. -/
def forwardCut (k : Kind) (h : Heap A) (p : Ptr) (toSize : Nat) : R (Ptr × Heap A) := do
  let from_ ← sizeOf h p
  let cut ← minus from_ toSize
  if k.managed then
    let t := alloc h toSize
    let h ← moveN k t.2 t.1 0 p cut toSize
    let h ← free k h p
    return (t.1, h)
  else
    let h ← memmove h p 0 p cut toSize
    realloc k false h p toSize

/-- get/defs.hpp:302-330 `forward_alloc_size_grow`. -/
def forwardGrow (k : Kind) (mv : Bool) (h : Heap A) (p : Ptr) (toSize : Nat) : R (Ptr × Heap A) := do
  let from_ ← sizeOf h p
  let grow ← minus toSize from_
  if k.managed then
    let t := alloc h toSize
    let h ← moveN k t.2 t.1 grow p 0 from_
    let h ← free k h p
    return (t.1, h)
  else
    let (q, h) ← realloc k mv h p toSize
    let h ← memmove h q grow q 0 from_
    return (q, h)

/-- get/defs.hpp:342-399 `forward_alloc_size_grow_with_insert_uninitialized_data`. -/
def forwardGrowInsert (k : Kind) (mv : Bool) (h : Heap A) (p : Ptr) (toSize pos n : Nat) : R (Ptr × Heap A) := do
  let from_ ← sizeOf h p
  let grow ← minus toSize from_
  let before ← minus grow n
  let after ← minus from_ pos
  if k.managed then
    let t := alloc h toSize
    let h ← moveN k t.2 t.1 before p 0 pos
    let h ← moveN k h t.1 (before + pos + n) p pos after
    let h ← free k h p
    return (t.1, h)
  else
    let (q, h) ← realloc k mv h p toSize
    let h ← memmove h q (before + pos + n) q pos after
    let h ← memmove h q before q 0 pos
    return (q, h)

/-- get/defs.hpp:412-482 `part_used_block_forward_alloc_size_grow_with_insert_uninitialized_data`; `pos` counts from the start of
the block, unused elements included (422). -/
def partForwardGrowInsert (k : Kind) (mv : Bool) (h : Heap A) (p : Ptr) (toSize pos n used : Nat) : R (Ptr × Heap A) := do
  let from_ ← sizeOf h p
  let unusedAfter ← minus toSize (used + n)
  let unusedBefore ← minus from_ used
  let after ← minus from_ pos
  let before ← minus pos unusedBefore
  if k.managed then
    let t := alloc h toSize
    let h ← moveN k t.2 t.1 (unusedAfter + before + n) p (unusedBefore + before) after
    let h ← moveN k h t.1 unusedAfter p unusedBefore before
    let h ← free k h p
    return (t.1, h)
  else
    let (q, h) ← realloc k mv h p toSize
    let h ← memmove h q (unusedAfter + before + n) q (unusedBefore + before) after
    let h ← memmove h q unusedAfter q unusedBefore before
    return (q, h)

/-- get/defs.hpp:518-524 `get<T>[size]()`. -/
def getN (k : Kind) (d : A) (h : Heap A) (n : Nat) : R (Ptr × Heap A) := do
  let t := alloc h n
  let h ← construct k d t.2 t.1 0 n
  return (t.1, h)

/-- get/defs.hpp:518-524 `get<T>[size](elem)`, lifetime/defs.hpp:155-162. -/
def getFill (k : Kind) (h : Heap A) (n : Nat) (s : Src A) : R (Ptr × Heap A) := do
  let t := alloc h n
  let h ← fill k t.2 t.1 0 s n
  return (t.1, h)

/-- get/defs.hpp:534-542 `get<T>.as_array(a)`; `n` is the size of the view. -/
def asArray (k : Kind) (h : Heap A) (s : Src A) (n : Nat) : R (Ptr × Heap A) := do
  let t := alloc h n
  let h ← copyConstruct k t.2 t.1 0 s n
  return (t.1, h)

/-- get/defs.hpp:551-559 `apply_end(to,view)` and 560-567 `apply_end(to,const T&)`, which is the view of one element. -/
def applyEnd (k : Kind) (mv : Bool) (h : Heap A) (p : Ptr) (s : Src A) (n : Nat) : R (Ptr × Heap A) := do
  let from_ ← sizeOf h p
  let (q, h) ← sizeGrow k mv h p (from_ + n)
  let h ← copyConstruct k h q from_ s n
  return (q, h)

/-- get/defs.hpp:568-575 `apply_end(to,T&&)` of an element of a block: the element is left moved from, not destroyed. -/
def applyEndMove (k : Kind) (mv : Bool) (h : Heap A) (p q : Ptr) (j : Nat) : R (Ptr × Heap A) := do
  let from_ ← sizeOf h p
  let (p', h) ← sizeGrow k mv h p (from_ + 1)
  let h ← if k.managed then moveLoop k p' from_ q j 1 h else memcpy h p' from_ q j 1
  return (p', h)

/-- `F/base_defs/range.hpp`:164-171 `in_range` for one element, counted from `i`; reading an unused cell is a fault. -/
def findFrom [DecidableEq A] (v : A) : Nat → List (Cell A) → R (Option Nat)
  | _, [] => .ok none
  | i, c :: cs => match c with
    | .raw => .error .rawRead
    | .live w => if w = v then .ok (some i) else findFrom v (i + 1) cs
    | .husk => findFrom v (i + 1) cs

/-- The cells the block has, none for `null_ptr`. -/
def all (h : Heap A) (p : Ptr) : R (List (Cell A)) :=
  match p with
  | none => .ok []
  | some _ => h.cells p

/-- get/defs.hpp:584-597 `get<T>.remove(a,from)`, array/defs.hpp:250-252 `remove`.  The pointer that `alloc_size_cut` changes is a
local copy (586, 595): the array keeps the pointer it had.  A value that was moved from is taken to be different from `v`.  (As
written, 588 gives a `const T*` to a `T*`; the conversion is read as if it were there.) -/
def remove [DecidableEq A] (k : Kind) (h : Heap A) (p : Ptr) (v : A) : R (Bool × Heap A) := do
  let from_ ← sizeOf h p
  let cs ← all h p
  match ← findFrom v 0 cs with
  | none => return (false, h)
  | some i =>
    let h ← destruct k h p i 1
    let h ← moveN k h p i p (i + 1) (from_ - (i + 1))
    let (_, h) ← sizeCut k h p (from_ - 1)
    return (true, h)

/-- get/defs.hpp:610-632 `unget`. -/
def unget (k : Kind) (h : Heap A) (p : Ptr) : R (Heap A) :=
  match p with
  | none => .ok h
  | some _ => do
    let n ← sizeOf h p
    let h ← destruct k h p 0 n
    free k h p

/-- get/defs.hpp:657-669 `get_resize`. -/
def resize (k : Kind) (d : A) (mv : Bool) (h : Heap A) (p : Ptr) (n : Nat) : R (Ptr × Heap A) := do
  let from_ ← sizeOf h p
  if from_ = n then return (p, h)
  else if n < from_ then
    let h ← destruct k h p n (from_ - n)
    sizeCut k h p n
  else if from_ ≠ 0 then
    let (q, h) ← sizeGrow k mv h p n
    let h ← construct k d h q from_ (n - from_)
    return (q, h)
  else getN k d h n

/-- get/defs.hpp:689-696 `insert(arg,pos,n)`. -/
def insert (k : Kind) (d : A) (mv : Bool) (h : Heap A) (p : Ptr) (pos n : Nat) : R (Ptr × Heap A) :=
  if n ≠ 0 then do
    let from_ ← sizeOf h p
    let (q, h) ← growInsert k mv h p (from_ + n) pos n
    let h ← construct k d h q pos n
    return (q, h)
  else .ok (p, h)

/-- get/defs.hpp:697-704 `insert(arg,pos,n,value)`. -/
def insertFill (k : Kind) (mv : Bool) (h : Heap A) (p : Ptr) (pos n : Nat) (s : Src A) : R (Ptr × Heap A) :=
  if n ≠ 0 then do
    let from_ ← sizeOf h p
    let (q, h) ← growInsert k mv h p (from_ + n) pos n
    let h ← fill k h q pos s n
    return (q, h)
  else .ok (p, h)

/-- get/defs.hpp:705-712 `insert(arg,pos,n,data)`. -/
def insertData (k : Kind) (mv : Bool) (h : Heap A) (p : Ptr) (pos n : Nat) (s : Src A) : R (Ptr × Heap A) :=
  if n ≠ 0 then do
    let from_ ← sizeOf h p
    let (q, h) ← growInsert k mv h p (from_ + n) pos n
    let h ← copyConstruct k h q pos s n
    return (q, h)
  else .ok (p, h)

/-- get/defs.hpp:719-725 `insert_with_resize`, with 175 and 178. -/
def insertResize (k : Kind) (d : A) (mv : Bool) (h : Heap A) (p : Ptr) (pos n : Nat) (s : Src A) (toSize : Nat) :
    R (Ptr × Heap A) := do
  let from_ ← sizeOf h p
  let (q, h) ← growInsert k mv h p toSize pos n
  let h ← copyConstruct k h q pos s n
  let grown ← minus toSize (from_ + n)
  let h ← construct k d h q (toSize - grown) grown
  return (q, h)

/-- get/defs.hpp:731-737 `insert_with_resize.with_used_size`, with 244 and 247: `end_growth_data_ptr` is `arg+to_size-used_size`
and `end_grow_size` is `to_size-from_size-insert_size`. -/
def partInsertResize (k : Kind) (d : A) (mv : Bool) (h : Heap A) (p : Ptr) (pos n : Nat) (s : Src A) (toSize used : Nat) :
    R (Ptr × Heap A) := do
  let from_ ← sizeOf h p
  let (q, h) ← partGrowInsert k mv h p toSize pos n used
  let h ← copyConstruct k h q pos s n
  if k = .plain then return (q, h)
  let start ← minus toSize used
  let grown ← minus toSize (from_ + n)
  let h ← construct k d h q start grown
  return (q, h)

/-- get/defs.hpp:771-783 `get_forward_resize`. -/
def forwardResize (k : Kind) (d : A) (mv : Bool) (h : Heap A) (p : Ptr) (n : Nat) : R (Ptr × Heap A) := do
  let from_ ← sizeOf h p
  if from_ = n then return (p, h)
  else if n < from_ then
    let h ← destruct k h p 0 (from_ - n)
    forwardCut k h p n
  else if from_ ≠ 0 then
    let (q, h) ← forwardGrow k mv h p n
    let h ← construct k d h q 0 (n - from_)
    return (q, h)
  else getN k d h n

/-- get/defs.hpp:817-825 `get_forward_resize.insert_with_resize`. -/
def forwardInsertResize (k : Kind) (d : A) (mv : Bool) (h : Heap A) (p : Ptr) (pos n : Nat) (s : Src A) (toSize : Nat) :
    R (Ptr × Heap A) :=
  if n ≠ 0 then do
    let from_ ← sizeOf h p
    let (q, h) ← forwardGrowInsert k mv h p toSize pos n
    let before := toSize - from_ - n
    let h ← copyConstruct k h q (before + pos) s n
    let h ← construct k d h q 0 before
    return (q, h)
  else .ok (p, h)

/-- get/defs.hpp:831-839 `get_forward_resize.insert_with_resize.with_used_size`, with 466 and 467: `before_grow_size` is
`grow_size+used_size-insert_size`. -/
def partForwardInsertResize (k : Kind) (d : A) (mv : Bool) (h : Heap A) (p : Ptr) (pos n : Nat) (s : Src A) (toSize used : Nat) :
    R (Ptr × Heap A) :=
  if n ≠ 0 then do
    let from_ ← sizeOf h p
    let (q, h) ← partForwardGrowInsert k mv h p toSize pos n used
    let h ← copyConstruct k h q (toSize - (used + n) + (pos - (from_ - used))) s n
    if k = .plain then return (q, h)
    let grow ← minus toSize from_
    let before ← minus (grow + used) n
    let h ← construct k d h q 0 before
    return (q, h)
  else .ok (p, h)

/-- get/defs.hpp:880-887 `copy_get`. -/
def copyGet (k : Kind) (h : Heap A) (p : Ptr) : R (Ptr × Heap A) := do
  let n ← sizeOf h p
  let t := alloc h n
  let h ← copyConstruct k t.2 t.1 0 (.at_ p 0) n
  return (t.1, h)

/-! ## Arrays: array/defs.hpp

A program has arrays, each under a name. -/

/-- The memory, and the pointer of each array. -/
structure State (A : Type) where
  heap : Heap A
  arr : Nat → Ptr

/-- One array's pointer changed. -/
def State.set (s : State A) (x : Nat) (p : Ptr) (h : Heap A) : State A :=
  { heap := h, arr := fun y => if y = x then p else s.arr y }

/-- What a program does with its arrays.  `mv` is the allocator's choice. -/
inductive Op (A : Type) where
  /-- construction of `x` in place of what it was: `n` default elements -/
  | sized (x n : Nat)
  /-- `n` copies of a value -/
  | filled (x n : Nat) (v : A)
  /-- the elements of a list or of a part of an array -/
  | listed (x : Nat) (vs : List A)
  | viewed (x y i n : Nat)
  /-- `x = y`, also the copy constructor -/
  | assign (x y : Nat)
  /-- `x = move(y)`, `x.swap_with(y)` -/
  | swap (x y : Nat)
  /-- the destructor, `clear` -/
  | clear (x : Nat)
  | resize (x n : Nat) (mv : Bool)
  | forwardResize (x n : Nat) (mv : Bool)
  | insert (x pos n : Nat) (mv : Bool)
  | insertFill (x pos n : Nat) (v : A) (mv : Bool)
  | insertFillFrom (x pos n y i : Nat) (mv : Bool)
  | insertData (x pos : Nat) (vs : List A) (mv : Bool)
  | insertFrom (x pos n y i : Nat) (mv : Bool)
  | insertResize (x pos : Nat) (vs : List A) (toSize : Nat) (mv : Bool)
  | forwardInsertResize (x pos : Nat) (vs : List A) (toSize : Nat) (mv : Bool)
  /-- `push_back` of a value, of an element of an array, and of an element moved -/
  | push (x : Nat) (v : A) (mv : Bool)
  | pushFrom (x y i : Nat) (mv : Bool)
  | pushMove (x y i : Nat) (mv : Bool)
  /-- `x += list`, `x += y` -/
  | append (x : Nat) (vs : List A) (mv : Bool)
  | appendFrom (x y : Nat) (mv : Bool)
  /-- `x[i] = v` -/
  | write (x i : Nat) (v : A)

/-- A new pointer for `x`, whose old elements go: what is built in a temporary is swapped in, and the temporary destroyed
(array/defs.hpp:89-101). -/
def replace (k : Kind) (s : State A) (x : Nat) (r : R (Ptr × Heap A)) : R (State A) := do
  let (q, h) ← r
  let h ← unget k h (s.arr x)
  return s.set x q h

/-- A changed pointer for `x`. -/
def update (s : State A) (x : Nat) (r : R (Ptr × Heap A)) : R (State A) := do
  let (q, h) ← r
  return s.set x q h

/-- array/defs.hpp:46-258.  The size constructor is 51-53, the filling one 54-56, from lists and views 58-73, copy and move 89-97,
the destructor 99-101, `resize` 109-111, `forward_resize` 113-115, `insert` 117-125, `insert_with_resize` 126-128,
`insert_with_forward_resize` 133-135, `clear` 142-144, `push_back` 244-249, `+=` 253-258. -/
def exec (k : Kind) (d : A) (s : State A) : Op A → R (State A)
  | .sized x n => replace k s x (getN k d s.heap n)
  | .filled x n v => replace k s x (getFill k s.heap n (.out [v]))
  | .listed x vs => replace k s x (asArray k s.heap (.out vs) vs.length)
  | .viewed x y i n => replace k s x (asArray k s.heap (.at_ (s.arr y) i) n)
  | .assign x y => replace k s x (copyGet k s.heap (s.arr y))
  | .swap x y => .ok { s with arr := fun z => if z = x then s.arr y else if z = y then s.arr x else s.arr z }
  | .clear x => replace k s x (.ok (none, s.heap))
  | .resize x n mv => update s x (resize k d mv s.heap (s.arr x) n)
  | .forwardResize x n mv => update s x (forwardResize k d mv s.heap (s.arr x) n)
  | .insert x pos n mv => update s x (insert k d mv s.heap (s.arr x) pos n)
  | .insertFill x pos n v mv => update s x (insertFill k mv s.heap (s.arr x) pos n (.out [v]))
  | .insertFillFrom x pos n y i mv => update s x (insertFill k mv s.heap (s.arr x) pos n (.at_ (s.arr y) i))
  | .insertData x pos vs mv => update s x (insertData k mv s.heap (s.arr x) pos vs.length (.out vs))
  | .insertFrom x pos n y i mv => update s x (insertData k mv s.heap (s.arr x) pos n (.at_ (s.arr y) i))
  | .insertResize x pos vs t mv => update s x (insertResize k d mv s.heap (s.arr x) pos vs.length (.out vs) t)
  | .forwardInsertResize x pos vs t mv => update s x (forwardInsertResize k d mv s.heap (s.arr x) pos vs.length (.out vs) t)
  | .push x v mv => update s x (applyEnd k mv s.heap (s.arr x) (.out [v]) 1)
  | .pushFrom x y i mv => update s x (applyEnd k mv s.heap (s.arr x) (.at_ (s.arr y) i) 1)
  | .pushMove x y i mv => update s x (applyEndMove k mv s.heap (s.arr x) (s.arr y) i)
  | .append x vs mv => update s x (applyEnd k mv s.heap (s.arr x) (.out vs) vs.length)
  | .appendFrom x y mv => do
    let n ← sizeOf s.heap (s.arr y)
    update s x (applyEnd k mv s.heap (s.arr x) (.at_ (s.arr y) 0) n)
  | .write x i v => do
    let c ← s.heap.read (s.arr x) i
    if k.managed && !c.alive then .error .notAlive
    else return { s with heap := ← s.heap.write (s.arr x) i (.live v) }

/-- No arrays, no blocks. -/
def start : State A := { heap := { blocks := fun _ => none, next := 0 }, arr := fun _ => none }

/-- A history. -/
def run (k : Kind) (d : A) : State A → List (Op A) → R (State A)
  | s, [] => .ok s
  | s, op :: ops => match exec k d s op with
    | .error f => .error f
    | .ok s => run k d s ops

/-- array/defs.hpp:102-104 `size`. -/
def size (s : State A) (x : Nat) : R Nat := sizeOf s.heap (s.arr x)

/-- array/defs.hpp:139-141 `empty`. -/
def empty (s : State A) (x : Nat) : Bool := (s.arr x).isNone

/-- array/defs.hpp:147-148 `operator[]`. -/
def get (s : State A) (x i : Nat) : R (Cell A) := s.heap.read (s.arr x) i

/-- array/defs.hpp:226-242 `for_each`: the cells in the order they are visited. -/
def forEach (s : State A) (x : Nat) : R (List (Cell A)) := do
  let n ← sizeOf s.heap (s.arr x)
  ((List.range n).reverse).mapM (fun i => s.heap.read (s.arr x) i)

end ELC.Arr
