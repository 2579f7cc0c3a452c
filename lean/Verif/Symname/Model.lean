/-!
Names of types and functions: F/base_defs/type_name.hpp (type_name.hpp below) and S/APIs/function_name.hpp
(function_name.hpp below).

A name is an object that holds a pointer to a text and its size.  `gnu` tells gcc and clang, where the text lies in a block
of `malloc`, from the other compilers, where it lies in static storage.  What the system gives (the result of
`abi::__cxa_demangle`, of `dladdr` and of `UnDecorateSymbolName`, the success of `malloc`) is a parameter.
`none`: undefined.

Simplification: characters are numbers; blocks are numbered in the order of their allocation and no number is used again.
-/
namespace ELC.Symname

/-- Where the text of a name lies. -/
inductive Ptr where
  | null
  | block (id : Nat)
  | static (text : List Nat)
deriving DecidableEq, Repr

/-- type_name.hpp:31-35 with F/base_defs/array_like.hpp:103-104: the fields of the view. -/
structure Name where
  ptr : Ptr
  size : Nat
deriving DecidableEq, Repr

/-- The blocks of `malloc` and the objects, each under a number. -/
structure Mem where
  heap : Nat → Option (List Nat)
  next : Nat
  vars : Nat → Option Name

/-- No block and no object. -/
def Mem.empty : Mem := ⟨fun _ => none, 0, fun _ => none⟩

/-- The result of `abi::__cxa_demangle` without a buffer of the caller: it allocates one, writes the text and a zero, says
how long the whole buffer is (`rest` is what lies behind the zero), or it reports a status other than zero. -/
inductive Demangled where
  | ok (text rest : List Nat)
  | fail
deriving DecidableEq, Repr

/-- `f` with another value at one place. -/
def set {α : Type} (f : Nat → α) (i : Nat) (a : α) : Nat → α := fun j => if j = i then a else f j

/-- `malloc` followed by writing the block. -/
def malloc (m : Mem) (content : List Nat) : Mem × Ptr :=
  (⟨set m.heap m.next (some content), m.next + 1, m.vars⟩, .block m.next)

/-- `free`: defined for null and for a block that is not free. -/
def free (m : Mem) : Ptr → Option Mem
  | .null => some m
  | .static _ => none
  | .block i => match m.heap i with
    | none => none
    | some _ => some ⟨set m.heap i none, m.next, m.vars⟩

/-- What can be read behind a pointer. -/
def bytes (m : Mem) : Ptr → Option (List Nat)
  | .null => some []
  | .block i => m.heap i
  | .static t => some (t ++ [0])

/-- The characters of a name. -/
def text (m : Mem) (n : Name) : Option (List Nat) :=
  (bytes m n.ptr).bind fun l => if n.size ≤ l.length then some (l.take n.size) else none

/-- type_name.hpp:37-58 `demangle` of a text in static storage, or of null. -/
def demangle (gnu : Bool) (m : Mem) (original : Option (List Nat)) (r : Demangled) : Option (Mem × Name) :=
  if gnu then
    match r with
    | .ok t rest =>
      let (m', p) := malloc m (t ++ 0 :: rest)
      some (m', ⟨p, (t ++ 0 :: rest).length⟩)
    | .fail => original.bind fun o => (free m (.static o)).map fun m' => (m', ⟨.static o, o.length⟩)
  else original.map fun o => (m, ⟨.static o, o.length⟩)

/-- type_name.hpp:60-74 `copy_demangle`; `alloc`: does `malloc` succeed? -/
def copyDemangle (gnu : Bool) (m : Mem) (alloc : Bool) (n : Name) : Option (Mem × Name) :=
  if gnu then
    if alloc then
      (text m n).map fun t =>
        let (m', p) := malloc m (t ++ [0])
        (m', ⟨p, n.size⟩)
    else some (m, ⟨.null, 0⟩)
  else some (m, n)

/-- What a program does with names. -/
inductive Op where
  /-- construct the object `v` from what the compiler or the system calls the thing -/
  | make (v : Nat) (original : Option (List Nat)) (r : Demangled)
  | copy (v u : Nat) (alloc : Bool)
  | move (v u : Nat)
  | drop (v : Nat)
deriving DecidableEq, Repr

/-- type_name.hpp:76-92: the constructors and the destructor. -/
def step (gnu : Bool) (m : Mem) : Op → Option Mem
  | .make v o r => (demangle gnu m o r).map fun x => ⟨x.1.heap, x.1.next, set x.1.vars v (some x.2)⟩
  | .copy v u alloc =>
    (m.vars u).bind fun n => (copyDemangle gnu m alloc n).map fun x => ⟨x.1.heap, x.1.next, set x.1.vars v (some x.2)⟩
  | .move v u => (m.vars u).map fun n => ⟨m.heap, m.next, set (set m.vars v (some n)) u (some ⟨.null, 0⟩)⟩
  | .drop v =>
    (m.vars v).bind fun n =>
      (if gnu then free m n.ptr else some m).map fun m' => ⟨m'.heap, m'.next, set m'.vars v none⟩

/-- One operation after the other. -/
def run (gnu : Bool) (m : Mem) : List Op → Option Mem
  | [] => some m
  | o :: os => (step gnu m o).bind fun m' => run gnu m' os

/-- "unknown" -/
def unknown : List Nat := [0x75, 0x6E, 0x6B, 0x6E, 0x6F, 0x77, 0x6E]

/-- function_name.hpp:135-141 `get_function_name` on Linux: `info` is what `dladdr` finds, and its name of the symbol if it
has one. -/
def functionName (m : Mem) (info : Option (Option (List Nat))) (r : Demangled) : Option (Mem × Name) :=
  demangle true m (info.getD (some unknown)) r

/-- "@ILT+" -/
def ilt : List Nat := [0x40, 0x49, 0x4C, 0x54, 0x2B]

/-- function_name.hpp:72-92 `demangle_name` on Windows: the text that is copied.  `und` is `UnDecorateSymbolName`, `none` if
it fails.  Simplification: that it reads and writes the same array in the case of 88 is left out. -/
def demangleName (und : List Nat → Option (List Nat)) (name : List Nat) : Option (List Nat) :=
  if ilt <+: name then
    match name.idxOf? 0x28 with
    | none => some name
    | some p =>
      let n1 := name.drop (p + 1)
      -- the size of the rest wraps around
      if n1.length = 0 then none
      else
        let n2 := n1.take (n1.length - 1)
        -- the zero behind the text has to fit as well
        if n2.length < 1024 then some ((und n2).getD n2) else none
  else some ((und name).getD name)

end ELC.Symname
