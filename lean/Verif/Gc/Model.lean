/-!
Garbage collection: marking from roots, sweeping, reference counts.
-/
namespace ELC.Gc

/-- How far the destruction of an object is. -/
inductive Life where
  | living
  /-- its destructor is running: the members go first, the bases (count, list) last -/
  | dying
  /-- destroyed; its memory must not be used -/
  | dead
deriving DecidableEq, Repr

/-- An object of a collected type: `comn_ptr_t` members to objects `edges`, in the order in which they are destroyed, and the
count of ref_t.hpp:33 `refs`. -/
structure Obj where
  edges : List Nat
  refs : Nat
  life : Life
deriving DecidableEq, Repr

/-- The objects in the order in which they were made, which is the order of the list of all objects (can_map_all.hpp:40-42,
list.hpp:99-101). -/
abbrev Heap := List Obj

/-- What is left to do when pointers are destroyed. -/
inductive Task where
  /-- the pointer to `b` is destroyed, base_ptr_t.hpp:108 -/
  | cut (b : Nat)
  /-- the destructor of `b` comes to its end -/
  | done (b : Nat)
deriving DecidableEq, Repr

/-- The program does something undefined: it uses a destroyed object or destroys an object twice. -/
inductive Fault where
  | usesDead
  | destroysTwice
  /-- not an outcome of the program: the bound of the model was too small (shown never to happen) -/
  | bound
deriving DecidableEq, Repr

/-- The tasks of a destructor: the members' pointers, then the bases. -/
def tasks (o : Obj) (b : Nat) : List Task := o.edges.map .cut ++ [.done b]

/-- ref_t.hpp:39 `--_ref_num`, a `size_t`. -/
def less (n : Nat) : Nat := if n = 0 then 2 ^ 64 - 1 else n - 1

/-- ref_able.hpp:37-46 `cut_ref` for objects without weak pointers, ref_base.hpp:39-48 `destroy_and_free`: the count goes
down, at zero the object is destroyed, with all that its own pointers bring about. -/
def work : Nat → Heap → List Task → Except Fault Heap
  | _, h, [] => .ok h
  | 0, _, _ => .error .bound
  | fuel + 1, h, .cut b :: ts =>
    match h[b]? with
    | none => .error .usesDead
    | some o =>
      if o.life = .dead then .error .usesDead
      else if less o.refs = 0 then
        if o.life = .dying then .error .destroysTwice
        else work fuel (h.set b { o with refs := less o.refs, life := .dying }) (tasks o b ++ ts)
      else work fuel (h.set b { o with refs := less o.refs }) ts
  | fuel + 1, h, .done b :: ts =>
    match h[b]? with
    | none => .error .usesDead
    | some o => work fuel (h.set b { o with life := .dead }) ts

/-- A bound for the number of tasks: every living object may still be destroyed. -/
def size : Heap → Nat
  | [] => 0
  | o :: h => (if o.life = .living then o.edges.length + 1 else 0) + size h

/-- `destory_by_gc` (gc/gc_t/default_method/defs.hpp:51-55), which the program has to write: the destructor is called, as in
gc/_test.hpp:49-51, whatever the count is. -/
def destroy (h : Heap) (a : Nat) : Except Fault Heap :=
  match h[a]? with
  | none => .error .usesDead
  | some o =>
    match o.life with
    | .dead => .error .usesDead
    | .dying => .error .destroysTwice
    | .living => work (size h + 1) (h.set a { o with life := .dying }) (tasks o a)

/-- The list of all objects from object `i` on: the first that is not destroyed. -/
def next (h : Heap) (i : Nat) : Nat → Nat
  | 0 => i
  | k + 1 =>
    match h[i]? with
    | none => i
    | some o => if o.life = .dead then next h (i + 1) k else i

/-- can_map_all.hpp:45-50 with the function of default_method/defs.hpp:68-79 (`shrink` is the program's, here nothing): the
iterator moves on before the object is looked at; an object that is not marked is destroyed.  `i` is where the iterator
is. -/
def sweep (marked : Nat → Bool) : Nat → Heap → Nat → Except Fault Heap
  | 0, _, _ => .error .bound
  | fuel + 1, h, i =>
    match h[i]? with
    | none => .ok h
    | some o =>
      if o.life = .dead then .error .usesDead
      else
        let j := next h (i + 1) h.length
        if marked i then sweep marked fuel h j
        else match destroy h i with
          | .error e => .error e
          | .ok h => sweep marked fuel h j

/-- default_method/defs.hpp:57-82 `default_gc_method` after the marking (64-66): `marked` is what the functions
`map_and_mark_for_gc` of the program have marked. -/
def collect (marked : Nat → Bool) (h : Heap) : Except Fault Heap := sweep marked (h.length + 1) h (next h 0 h.length)

/-! ### roots -/

/-- A `root_ptr_t`: where it points, whether it exists, whether `roots_of` knows it. -/
structure Root where
  target : Nat
  alive : Bool
  known : Bool
deriving DecidableEq, Repr

/-- What the program does with root pointers. -/
inductive Step where
  /-- gc_flags/roots/_body.hpp:68-70: made from a pointer, put into `roots_of` -/
  | make (target : Nat)
  /-- copied; `root_of` has no copy constructor of its own, so `add` is not called -/
  | copy (r : Nat)
  /-- destroyed; `root_of` has no destructor, so `remove` is not called -/
  | drop (r : Nat)
  /-- root_ptr/defs.hpp:47-51: pointed elsewhere -/
  | assign (r target : Nat)
deriving DecidableEq, Repr

/-- One step; steps with root pointers that do not exist do nothing. -/
def rootStep (l : List Root) : Step → List Root
  | .make a => l ++ [⟨a, true, true⟩]
  | .copy r =>
    match l[r]? with
    | some o => if o.alive then l ++ [⟨o.target, true, false⟩] else l
    | none => l
  | .drop r =>
    match l[r]? with
    | some o => l.set r { o with alive := false }
    | none => l
  | .assign r a =>
    match l[r]? with
    | some o => if o.alive then l.set r { o with target := a } else l
    | none => l

/-- Several steps. -/
def rootRun : List Root → List Step → List Root := List.foldl rootStep

/-- gc_flags/roots/_body.hpp:52-59 `roots_t::map_and_mark`, root_ptr/defs.hpp:55-57: the objects that marking starts from;
each root pointer in `roots_of` is used, `none` when it is destroyed. -/
def starts : List Root → Option (List Nat)
  | [] => some []
  | r :: l =>
    if r.known then
      if r.alive then (starts l).map fun s => r.target :: s else none
    else starts l

/-! ### the collector -/

/-- gc_t/defs.hpp:31-84 with the collected types: of each type the number of objects that can be reached and of those that
cannot, and how many there were when its method ran last (default_method/defs.hpp:61-62); the types whose methods were
added, the last one first (base_stack.hpp:116-119).  Objects of one type that hold objects of another are not modelled
here. -/
structure Collector where
  kept : Nat → Nat
  garbage : Nat → Nat
  before : Nat → Nat
  types : List Nat
  running : Bool

/-- count_able.hpp:39-46 `the_number_of`. -/
def Collector.number (c : Collector) (T : Nat) : Nat := c.kept T + c.garbage T

/-- gc_t/defs.hpp:74-78 `add_gc_method(type)`. -/
def Collector.add (c : Collector) (T : Nat) : Collector := { c with types := T :: c.types }

/-- default_method/defs.hpp:57-82: the number is taken, then the objects that cannot be reached are destroyed. -/
def Collector.method (c : Collector) (T : Nat) : Collector :=
  { c with before := fun U => if U = T then c.number T else c.before U,
           garbage := fun U => if U = T then 0 else c.garbage U }

/-- gc_t/defs.hpp:40-48 `operator()`; `none` ends the program (`die_with`). -/
def Collector.run (c : Collector) : Option Collector :=
  if c.running then none
  else if c.types.isEmpty then none
  else some { c.types.foldl Collector.method { c with running := true } with running := false }

/-- default_method/defs.hpp:88-93. -/
def Collector.fewer (c : Collector) (T : Nat) : Bool := c.number T < c.before T

/-- gc_t/defs.hpp:49-58 `success`. -/
def Collector.success (c : Collector) : Bool :=
  c.types.foldl (fun s T => if !s then c.fewer T else s) c.types.isEmpty

end ELC.Gc
