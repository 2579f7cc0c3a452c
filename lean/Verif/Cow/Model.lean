/-!
Shared values copied when changed: `F/base/container/copy_on_write/defs.hpp`, with the counted pointer of
`F/base/memory/ptr/ptr/base_ptr_t.hpp` and `F/base/memory/ptr/ref/ref_able.hpp`.

`V` is the type of the values (`base_t_w`).  `none` is a use of storage that does not exist or was given back, or of a handle
that does not exist.
-/
namespace ELC.Cow

/-- copy_on_write/defs.hpp:36-41 `data_t`: a value and the number of its pointers.  Storage whose count is 0 is given back. -/
structure Cell (V : Type) where
  refs : Nat
  value : V
deriving DecidableEq

/-- The storage, the handles (`none` after their end), the references kept to values, the results of comparisons. -/
structure State (V : Type) where
  cells : List (Cell V)
  handles : List (Option Nat)
  kept : List Nat
  out : List Bool
deriving DecidableEq

def init {V : Type} : State V := ⟨[], [], [], []⟩

variable {V : Type}

/-- Storage that has not been given back. -/
def cell (cells : List (Cell V)) (c : Nat) : Option (Cell V) := (cells[c]?).bind fun x => if x.refs = 0 then none else some x

/-- ref_able.hpp:36 `add_ref`, through a pointer that may be null. -/
def addRef (cells : List (Cell V)) (p : Option Nat) : Option (List (Cell V)) :=
  p.bind fun c => (cells[c]?).map fun x => cells.set c { x with refs := x.refs + 1 }

/-- ref_able.hpp:37-47 `cut_ref`. -/
def cutRef (cells : List (Cell V)) (c : Nat) : Option (List (Cell V)) :=
  (cell cells c).map fun x => cells.set c { x with refs := x.refs - 1 }

def handle (s : State V) (x : Nat) : Option Nat := (s.handles[x]?).bind id

/-- base_ptr_t.hpp:111 `reset`. -/
def reset (s : State V) (x c : Nat) : Option (State V) :=
  (handle s x).bind fun old => (addRef s.cells (some c)).bind fun cells => (cutRef cells old).map fun cells =>
    { s with cells := cells, handles := s.handles.set x (some c) }

/-- copy_on_write/defs.hpp:52-55 `copy_check`; `unique`: base_ptr_t.hpp:135. -/
def copyCheck (s : State V) (x : Nat) : Option (State V) :=
  (handle s x).bind fun c => (cell s.cells c).bind fun v =>
    if v.refs = 1 then some s
    else reset { s with cells := s.cells ++ [⟨0, v.value⟩] } x s.cells.length

/-- copy_on_write/defs.hpp:49-51 `get`. -/
def get (s : State V) (x : Nat) : Option V := (handle s x).bind fun c => (cell s.cells c).map Cell.value

/-- What a program does with handles. -/
inductive Op (V : Type) where
  /-- `copy_on_write_t<T> x;` (line 57): `v` is the value of a new `T` -/
  | make (v : V)
  /-- `copy_on_write_t<T> x(v);` (lines 58-61) -/
  | makeFrom (v : V)
  /-- `auto x=y;` with `y` moved from or not (lines 64-65, base_ptr_t.hpp:88-103) -/
  | copy (y : Nat)
  /-- `x=as_const(y);` (line 66) -/
  | assign (x y : Nat)
  /-- `x=y;`, which is the assignment of lines 74-79 through the conversion of lines 80-83 -/
  | assignValue (x y : Nat)
  /-- `x=move(y);`, `swap(x,y);` (lines 67, 69) -/
  | swap (x y : Nat)
  /-- `x=v;`, `x.resize(n);`, `x[i]=e;`, `x.swap_with(v);` (lines 70-79, 97-101, 110-114): a change of the value -/
  | modify (x : Nat) (f : V → V)
  /-- `x==y` (lines 88-94) -/
  | equal (x y : Nat)
  /-- the end of `x` -/
  | drop (x : Nat)
  /-- `T&r=x;` or `auto&r=x[i];` (lines 80-83, 97-101) -/
  | keep (x : Nat)
  /-- a change through the reference kept `r`-th -/
  | write (r : Nat) (f : V → V)

def exec (eq : V → V → Bool) (s : State V) : Op V → Option (State V)
  | .make v => some { s with cells := s.cells ++ [⟨1, v⟩], handles := s.handles ++ [some s.cells.length] }
  -- the pointer is first made null (base_ptr_t.hpp:104-105), which is `nullptr` here (null_ptr.hpp:56-57)
  | .makeFrom v =>
    (addRef s.cells none).map fun cells => { s with cells := cells ++ [⟨1, v⟩], handles := s.handles ++ [some s.cells.length] }
  | .copy y =>
    (handle s y).bind fun c => (addRef s.cells (some c)).map fun cells => { s with cells := cells, handles := s.handles ++ [some c] }
  | .assign x y => (handle s y).bind fun c => reset s x c
  | .assignValue x y =>
    (copyCheck s x).bind fun s => (copyCheck s y).bind fun s => (get s y).bind fun v => (handle s x).bind fun c =>
      (cell s.cells c).map fun o => { s with cells := s.cells.set c { o with value := v } }
  | .swap x y =>
    (handle s x).bind fun a => (handle s y).map fun b => { s with handles := (s.handles.set x (some b)).set y (some a) }
  | .modify x f =>
    (copyCheck s x).bind fun s => (handle s x).bind fun c => (cell s.cells c).map fun o =>
      { s with cells := s.cells.set c { o with value := f o.value } }
  | .equal x y =>
    (get s x).bind fun a => (get s y).bind fun b =>
      if eq a b then ((handle s y).bind fun c => reset s x c).map fun s => { s with out := s.out ++ [true] }
      else some { s with out := s.out ++ [false] }
  | .drop x => (handle s x).bind fun c => (cutRef s.cells c).map fun cells => { s with cells := cells, handles := s.handles.set x none }
  | .keep x => (copyCheck s x).bind fun s => (handle s x).map fun c => { s with kept := s.kept ++ [c] }
  | .write r f =>
    (s.kept[r]?).bind fun c => (cell s.cells c).map fun o => { s with cells := s.cells.set c { o with value := f o.value } }

def run (eq : V → V → Bool) : State V → List (Op V) → Option (State V)
  | s, [] => some s
  | s, op :: ops => (exec eq s op).bind fun s => run eq s ops

end ELC.Cow
