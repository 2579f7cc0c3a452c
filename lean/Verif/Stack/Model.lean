import Mathlib.Data.List.Basic
import Mathlib.Logic.Function.Basic

/-
The linked stacks that buckets of hash tables are made of.  Models F/base/container/stacks/base_stack.hpp:31-166 and
auto_stack.hpp:31-69 with their pointers.  (Area Table uses the lists this area proves them to be.)

Simplifications: exceptions and failed allocation are left out.  `swap(a,b)` of a pointer and a constant sets `a` to `b` and
returns what `a` was, as `move_top_to` needs it.
-/
namespace ELC.Stack

variable {A : Type}

/-- base_stack.hpp:35-41 `data_t`. -/
structure Cell (A : Type) where
  data : A
  next : Option Nat

/-- The memory: the cells that `get` gave and `unget` did not take back, by address. -/
abbrev Mem (A : Type) := Nat → Option (Cell A)

/-- base_stack.hpp:41-42: `_m` (`none` is the null pointer) and `_size`. -/
structure St where
  top : Option Nat
  size : Nat

/-- base_stack.hpp:57. -/
def St.empty : St := ⟨none, 0⟩

/-- What `data_t**` points to: the top pointer of the stack, or the `_next` of a cell. -/
inductive Place where
  | top
  | next (i : Nat)

/-- `*place=v`, for the stack with that top; `none`: the cell is not there any more. -/
def set (h : Mem A) (top : Option Nat) (v : Option Nat) : Place → Option (Mem A × Option Nat)
  | .top => some (h, v)
  | .next i => (h i).map fun c => (Function.update h i (some { c with next := v }), top)

/-- The loops of `find` and `remove`, base_stack.hpp:88-93, 118-128, auto_stack.hpp:46-57: the first cell that matches and the
place that points to it.  `none`: a cell is read that is not there, or the loop does not end. -/
def seek (p : A → Bool) (h : Mem A) (tmp : Option Nat) (place : Place) : Option (Option (Nat × Place)) :=
  match tmp with
  | none => some none
  | some i =>
    match h i with
    | none => none
    | some c => if p c.data then some (some (i, place)) else seek p h c.next (.next i)
partial_fixpoint

/-- base_stack.hpp:110-113 `add`, with the address `i` of the new cell. -/
def add (h : Mem A) (s : St) (x : A) (i : Nat) : Mem A × St :=
  (Function.update h i (some ⟨x, s.top⟩), ⟨some i, s.size + 1⟩)

/-- base_stack.hpp:86-95 `find`: the cell the reference is to. -/
def find (p : A → Bool) (h : Mem A) (s : St) : Option (Option Nat) :=
  (seek p h s.top .top).map fun r => r.map fun q => q.1

/-- auto_stack.hpp:49-51: the cell found becomes the top. -/
def lift (h : Mem A) (s : St) (i : Nat) (place : Place) : Option (Mem A × St) :=
  (h i).bind fun c => (set h s.top c.next place).bind fun r =>
    (r.1 i).map fun c => (Function.update r.1 i (some { c with next := r.2 }), ⟨some i, s.size⟩)

/-- auto_stack.hpp:44-59 `find`: the cell the reference is to, which is the top afterwards. -/
def autoFind (p : A → Bool) (h : Mem A) (s : St) : Option (Option Nat × Mem A × St) :=
  (seek p h s.top .top).bind fun r =>
    match r with
    | none => some (none, h, s)
    | some q => (lift h s q.1 q.2).map fun t => (some q.1, t.1, t.2)

/-- base_stack.hpp:121-123: a cell is taken out and given back. -/
def cut (h : Mem A) (s : St) (i : Nat) (place : Place) : Option (Mem A × St) :=
  (h i).bind fun c => (set h s.top c.next place).map fun r =>
    (Function.update r.1 i none, ⟨r.2, s.size - 1⟩)

/-- base_stack.hpp:117-130 `remove`. -/
def remove (p : A → Bool) (h : Mem A) (s : St) : Option (Bool × Mem A × St) :=
  (seek p h s.top .top).bind fun r =>
    match r with
    | none => some (false, h, s)
    | some q => (cut h s q.1 q.2).map fun t => (true, t.1, t.2)

/-- base_stack.hpp:131-150 `for_each`: what the function is called with, in order. -/
def forEach (h : Mem A) (tmp : Option Nat) : Option (List A) :=
  match tmp with
  | none => some []
  | some i =>
    match h i with
    | none => none
    | some c => do
      let r ← forEach h c.next
      pure (c.data :: r)
partial_fixpoint

/-- base_stack.hpp:73-82, the destructor: the loop that gives the cells back. -/
def release (h : Mem A) (tmp : Option Nat) : Option (Mem A) :=
  match tmp with
  | none => some h
  | some i =>
    match h i with
    | none => none
    | some c => release (Function.update h i none) c.next
partial_fixpoint

/-- base_stack.hpp:84-86 `clear`. -/
def clear (h : Mem A) (s : St) : Option (Mem A × St) := (release h s.top).map fun h => (h, St.empty)

/-- base_stack.hpp:44-55, the loop of `copy`: `place` belongs to the copy with top `top`; the new cells get the addresses
`is`.  `none`: as above, or not enough addresses are given. -/
def copyLoop (h : Mem A) (p : Option Nat) (top : Option Nat) (place : Place) (is : List Nat) :
    Option (Mem A × Option Nat) :=
  match p with
  | none => some (h, top)
  | some j =>
    match h j, is with
    | some c, i :: is => do
      let r ← set (Function.update h i (some ⟨c.data, none⟩)) top (some i) place
      copyLoop r.1 c.next r.2 (.next i) is
    | _, _ => none
partial_fixpoint

/-- base_stack.hpp:43-56 `copy`. -/
def copy (h : Mem A) (s : St) (is : List Nat) : Option (Mem A × St) :=
  (copyLoop h s.top none .top is).map fun r => (r.1, ⟨r.2, s.size⟩)

/-- base_stack.hpp:69-71 `operator=` of another stack: the copy is made, exchanged with this one, and destroyed with what
this one held. -/
def assign (h : Mem A) (s t : St) (is : List Nat) : Option (Mem A × St) :=
  (copy h t is).bind fun r => (release r.1 s.top).map fun h => (h, r.2)

/-- base_stack.hpp:162-165 `move_top_to`, with `add` of a cell (153-157): this stack, then the other one.  `none`: this one
has no top. -/
def moveTop (h : Mem A) (s t : St) : Option (Mem A × St × St) :=
  match s.top with
  | none => none
  | some i => (h i).map fun c =>
    (Function.update h i (some { c with next := t.top }), ⟨c.next, s.size - 1⟩, ⟨some i, t.size + 1⟩)

end ELC.Stack
