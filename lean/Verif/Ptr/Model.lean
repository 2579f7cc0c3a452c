/-!
Counted pointers: `F/base/memory/ptr/ref/*.hpp`, `F/base/memory/ptr/ptr/base_ptr_t.hpp`.

Objects are numbered in the order they are made.  An object has members that are pointers, strong or weak, to objects.
`none` is a use of memory that has been given back, or a second destruction.  Object 0 is the null object
(`the_get_null_ptr`), whose strong count starts at one (`never_ref_num_zero`, ref_t.hpp:36).  Counts are unbounded
(`size_t` in the code).
-/
namespace ELC.Ptr

/-- A pointer: `comn_ptr_t` (strong) or `weak_ptr_t`, with the object it points to. -/
structure Ref where
  weak : Bool
  to : Nat
deriving DecidableEq

/-- Where an object is in its life: in use; emptied by `waiting_for_destroy`; its destructor running; its storage given
back. -/
inductive Phase where
  | alive | cleared | dying | freed
deriving DecidableEq

/-- An object: the two counts (ref_t.hpp:33), its pointer members. -/
structure Obj where
  phase : Phase
  strong : Nat
  weakNum : Nat
  fields : List Ref
deriving DecidableEq

/-- What is still to be done, the innermost call first. -/
inductive Task where
  /-- the destructor of a pointer, or the end of a `reset` (base_ptr_t.hpp:108, 111) -/
  | cut (r : Ref)
  /-- the object's `clear()` is running -/
  | clear (i : Nat)
  /-- the object's destructor is running -/
  | destroy (i : Nat)

/-- The objects, and the ends of life so far: objects emptied or destroyed while in use, and objects whose destructor ran. -/
structure Heap where
  objs : List Obj
  ended : List Nat
  destroyed : List Nat
deriving DecidableEq

/-- One object changed. -/
def Heap.put (h : Heap) (i : Nat) (o : Obj) : Heap := { h with objs := h.objs.set i o }

/-- An object whose storage is still there. -/
def Heap.stored (h : Heap) (i : Nat) : Option Obj :=
  (h.objs[i]?).bind fun o => if o.phase = .freed then none else some o

/-- ref_t.hpp:37 `add_ref`. -/
def addRef (h : Heap) (r : Ref) : Option Heap :=
  (h.stored r.to).map fun o =>
    h.put r.to (if r.weak then { o with weakNum := o.weakNum + 1 } else { o with strong := o.strong + 1 })

/-- ref_base.hpp:41-48 `destroy_and_free`: the destructor begins. -/
def destroyAndFree (h : Heap) (i : Nat) (o : Obj) (ts : List Task) : Option (Heap × List Task) :=
  if o.phase = .dying then none
  else some
    ({ h.put i { o with phase := .dying } with
        ended := if o.phase = .alive then i :: h.ended else h.ended, destroyed := i :: h.destroyed }, .destroy i :: ts)

/-- ref_base.hpp:33-38 `waiting_for_destroy`, for node_like.hpp:106 `clear()`. -/
def waitingForDestroy (h : Heap) (i : Nat) (o : Obj) (ts : List Task) : Heap × List Task :=
  ({ h.put i { o with phase := .cleared } with ended := i :: h.ended }, .clear i :: ts)

/-- ref_able.hpp:37-47 and weak_ref_able.hpp:36-43 `cut_ref`. -/
def cutRef (h : Heap) (r : Ref) (ts : List Task) : Option (Heap × List Task) :=
  (h.stored r.to).bind fun o =>
    if r.weak then
      if o.weakNum = 0 then none
      else
        if o.weakNum - 1 = 0 ∧ o.strong = 0 then destroyAndFree (h.put r.to { o with weakNum := 0 }) r.to { o with weakNum := 0 } ts
        else some (h.put r.to { o with weakNum := o.weakNum - 1 }, ts)
    else
      if o.strong = 0 then none
      else
        if o.strong - 1 = 0 then
          if o.weakNum ≠ 0 then
            some (waitingForDestroy (h.put r.to { o with strong := 0 }) r.to { o with strong := 0 } ts)
          else destroyAndFree (h.put r.to { o with strong := 0 }) r.to { o with strong := 0 } ts
        else some (h.put r.to { o with strong := o.strong - 1 }, ts)

/-- One step of the innermost task.  `clear()` and the destructor take the members one after the other; both touch the object
again at their end: `clear()` of a node with a map makes a new map in it (map/defs.hpp:101-103), the destructor is followed by
giving the storage back. -/
def step (h : Heap) (t : Task) (ts : List Task) : Option (Heap × List Task) :=
  match t with
  | .cut r => cutRef h r ts
  | .clear i =>
    (h.stored i).map fun o =>
      match o.fields with
      | r :: rs => (h.put i { o with fields := rs }, .cut r :: .clear i :: ts)
      | [] => (h, ts)
  | .destroy i =>
    (h.stored i).map fun o =>
      match o.fields with
      | r :: rs => (h.put i { o with fields := rs }, .cut r :: .destroy i :: ts)
      | [] => (h.put i { o with phase := .freed }, ts)

/-- The size of a task, for the termination of `work`. -/
def Task.weight : Task → Nat
  | .cut _ => 2
  | _ => 1

def Heap.fieldCount (h : Heap) : Nat := (h.objs.map fun o => o.fields.length).sum

/-- The work left. -/
def weight (h : Heap) (ts : List Task) : Nat := 3 * h.fieldCount + (ts.map Task.weight).sum

/-- All tasks done, with everything they bring about. -/
def work (h : Heap) (ts : List Task) : Option Heap :=
  match ts with
  | [] => some h
  | t :: rest =>
    (step h t rest).bind fun p => if _hlt : weight p.1 p.2 < weight h (t :: rest) then work p.1 p.2 else none
termination_by weight h ts

/-! ### programs -/

/-- The state of a program: the objects and the pointer variables (`none` after the end of their life). -/
structure State where
  heap : Heap
  vars : List (Option Ref)

/-- The null object only. -/
def init : State := ⟨⟨[⟨.alive, 1, 0, []⟩], [], []⟩, []⟩

/-- What a program can do with pointers. -/
inductive Op where
  /-- `comn_ptr_t v=get<T>(…)`, the members copied from the variables listed -/
  | make (members : List Nat)
  /-- `comn_ptr_t v=x` (`weak = false`) or `weak_ptr_t v=x`: copy and conversion -/
  | copy (weak : Bool) (x : Nat)
  /-- `x=y`, or `x.reset(y.get())` -/
  | assign (x y : Nat)
  /-- `x=move(y)`, `swap(x,y)`, for pointers of one kind -/
  | swap (x y : Nat)
  /-- `x=null_ptr` -/
  | reset (x : Nat)
  /-- the end of the life of `x` -/
  | drop (x : Nat)
  /-- `x->member=y` -/
  | setField (x member y : Nat)
  /-- a new member of `*x`, copied from `y` -/
  | addField (x y : Nat)

def State.var (s : State) (x : Nat) : Option Ref := (s.vars[x]?).bind id

/-- base_ptr_t.hpp:78-88: the pointer a copy of `r` is: a strong pointer made from one to an object without strong pointers
is null. -/
def copyRef (h : Heap) (weak : Bool) (r : Ref) : Option Ref :=
  (h.stored r.to).map fun o => if weak = false ∧ o.strong = 0 then ⟨false, 0⟩ else ⟨weak, r.to⟩

/-- A copy made, and counted. -/
def takeRef (h : Heap) (weak : Bool) (r : Ref) : Option (Heap × Ref) :=
  (copyRef h weak r).bind fun r' => (addRef h r').map fun h' => (h', r')

/-- The members of a new object. -/
def takeAll (s : State) : Heap → List Nat → Option (Heap × List Ref)
  | h, [] => some (h, [])
  | h, x :: xs =>
    (s.var x).bind fun r => (takeRef h r.weak r).bind fun p => (takeAll s p.1 xs).map fun q => (q.1, p.2 :: q.2)

/-- One operation.  `none`: undefined, or one of the variables does not exist. -/
def exec (s : State) : Op → Option State
  | .make members =>
    (takeAll s s.heap members).bind fun p =>
      let i := p.1.objs.length
      (addRef { p.1 with objs := p.1.objs ++ [⟨.alive, 0, 0, p.2⟩] } ⟨false, i⟩).map fun h => ⟨h, s.vars ++ [some ⟨false, i⟩]⟩
  | .copy weak x =>
    (s.var x).bind fun r => (takeRef s.heap weak r).map fun p => ⟨p.1, s.vars ++ [some p.2]⟩
  -- base_ptr_t.hpp:215-216 and 111: count the new one, then give up the old one
  | .assign x y =>
    (s.var x).bind fun old => (s.var y).bind fun r =>
      (addRef s.heap ⟨old.weak, r.to⟩).bind fun h =>
        (work h [.cut old]).map fun h' => ⟨h', s.vars.set x (some ⟨old.weak, r.to⟩)⟩
  -- base_ptr_t.hpp:47, 217-218
  | .swap x y =>
    (s.var x).bind fun a => (s.var y).bind fun b =>
      if a.weak = b.weak then some ⟨s.heap, (s.vars.set x (some b)).set y (some a)⟩ else none
  | .reset x =>
    (s.var x).bind fun old =>
      (addRef s.heap ⟨old.weak, 0⟩).bind fun h =>
        (work h [.cut old]).map fun h' => ⟨h', s.vars.set x (some ⟨old.weak, 0⟩)⟩
  | .drop x =>
    (s.var x).bind fun old => (work s.heap [.cut old]).map fun h => ⟨h, s.vars.set x none⟩
  | .setField x m y =>
    (s.var x).bind fun a => (s.var y).bind fun r =>
      (s.heap.stored a.to).bind fun o => (o.fields[m]?).bind fun old =>
        (addRef s.heap ⟨old.weak, r.to⟩).bind fun h =>
          (h.stored a.to).bind fun o' =>
            (work (h.put a.to { o' with fields := o'.fields.set m ⟨old.weak, r.to⟩ }) [.cut old]).map fun h' => ⟨h', s.vars⟩
  | .addField x y =>
    (s.var x).bind fun a => (s.var y).bind fun r =>
      (takeRef s.heap r.weak r).bind fun p =>
        (p.1.stored a.to).map fun o => ⟨p.1.put a.to { o with fields := o.fields ++ [p.2] }, s.vars⟩

/-- A program: a history of operations. -/
def run : State → List Op → Option State
  | s, [] => some s
  | s, op :: ops => (exec s op).bind fun s' => run s' ops

end ELC.Ptr
