/-!
Dynamic libraries: F/lib_loader/lib_loader.hpp (lib_loader.hpp below), S/APIs/library_load.hpp (library_load.hpp below) and
F/package_symbol_loader/package_symbol_loader.hpp.

The system is a parameter: which library it finds under a name, the symbols of a library, the symbols of the program itself.
It counts how often a library is open; opening an open library counts up (`dlopen`, `LoadLibraryA`).  `none`: undefined.

Simplifications: names are numbers; the data of a function are copied with it (they are shared and counted in the code, see
Func); the numbers a counter reaches are not bounded (see Ptr); code may be called while its library is open.
-/
namespace ELC.Lib

/-- The system: library_load.hpp:63-98. -/
structure Os where
  linux : Bool
  find : Nat → Option Nat
  symbols : Nat → Nat → Option Nat
  program : Nat → Option Nat

/-- lib_loader.hpp:37-42 `library_info_t`: the handle of the system, null if loading failed, and the counter. -/
structure Info where
  lib : Option Nat
  refs : Nat
deriving DecidableEq, Repr

/-- What a variable of the program holds: a `library_handle_t` (null: the object `null_lib`, 82-83), or a function with its
address and, if it is a `symbol_t` (90-119), the handle it holds. -/
inductive Obj where
  | handle (i : Option Nat)
  | func (i : Option Nat) (addr : Nat)
deriving DecidableEq, Repr

/-- The object of a library a variable refers to. -/
def Obj.info : Obj → Option Nat
  | .handle i => i
  | .func i _ => i

/-- All `library_info_t` made so far; how often each library is open; the variables; the addresses called, newest first. -/
structure Mem where
  infos : List Info
  opened : Nat → Nat
  vars : List Obj
  called : List Nat

def Mem.init : Mem := ⟨[], fun _ => 0, [], []⟩

inductive Op where
  | load (name : Nat)
  /-- a function of the program itself -/
  | native (addr : Nat)
  | copy (k : Nat)
  | drop (k : Nat)
  /-- the symbol `s` of the library variable `k` holds, as a function -/
  | sym (k s : Nat)
  /-- the library the function in variable `k` comes from -/
  | handleOf (k : Nat)
  | call (k : Nat)
deriving DecidableEq, Repr

/-- `f` with another value at one place. -/
def set (f : Nat → Nat) (i a : Nat) : Nat → Nat := fun j => if j = i then a else f j

/-- library_load.hpp:82-89 `base_free_library`: Linux does not define what closing null does, Windows reports an error that is
ignored. -/
def close (os : Os) (m : Mem) : Option Nat → Option Mem
  | none => if os.linux then none else some m
  | some l => if m.opened l = 0 then none else some { m with opened := set m.opened l (m.opened l - 1) }

/-- A `comn_ptr_t` begins to refer to an object; `null_lib` is not counted (lib_loader.hpp:47). -/
def acquire (m : Mem) : Option Nat → Option Mem
  | none => some m
  | some i => match m.infos[i]? with
    | none => none
    | some x => some { m with infos := m.infos.set i ⟨x.lib, x.refs + 1⟩ }

/-- A `comn_ptr_t` ends to refer to an object, the last one destroys it: lib_loader.hpp:56-58. -/
def release (os : Os) (m : Mem) : Option Nat → Option Mem
  | none => some m
  | some i => match m.infos[i]? with
    | none => none
    | some x =>
      if x.refs = 0 then none
      else
        let m' := { m with infos := m.infos.set i ⟨x.lib, x.refs - 1⟩ }
        if x.refs = 1 then close os m' x.lib else some m'

/-- The handle of the system in an object. -/
def libOf (m : Mem) (i : Option Nat) : Option Nat := (i.bind fun j => m.infos[j]?).bind fun x => x.lib

/-- library_load.hpp:90-99 `base_get_symbol`, 111-114: with a null handle it looks at the program. -/
def address (os : Os) (m : Mem) (i : Option Nat) (s : Nat) : Option Nat :=
  match libOf m i with
  | some l => os.symbols l s
  | none => os.program s

/-- lib_loader.hpp:49-55 the constructor, 130-132 `load_lib`. -/
def load (os : Os) (m : Mem) (name : Nat) : Mem :=
  let l := os.find name
  { m with infos := m.infos ++ [⟨l, 1⟩],
           opened := match l with
             | some l => set m.opened l (m.opened l + 1)
             | none => m.opened,
           vars := m.vars ++ [.handle (some m.infos.length)] }

def step (os : Os) (m : Mem) : Op → Option Mem
  | .load name => some (load os m name)
  | .native a => some { m with vars := m.vars ++ [.func none a] }
  | .copy k => (m.vars[k]?).bind fun o => (acquire m o.info).map fun m' => { m' with vars := m'.vars ++ [o] }
  | .drop k => (m.vars[k]?).bind fun o => (release os m o.info).map fun m' => { m' with vars := m'.vars.eraseIdx k }
  -- lib_loader.hpp:73-75, 122-128: `get_symbol_as` makes a reference of the address, so that it has to exist
  | .sym k s => match m.vars[k]? with
    | some (.handle i) =>
      (address os m i s).bind fun a => (acquire m i).map fun m' => { m' with vars := m'.vars ++ [.func i a] }
    | _ => none
  -- lib_loader.hpp:134-141 `get_library_handle_form_symbol`
  | .handleOf k => match m.vars[k]? with
    | some (.func i _) => (acquire m i).map fun m' => { m' with vars := m'.vars ++ [.handle i] }
    | _ => none
  | .call k => match m.vars[k]? with
    | some (.func i a) => match libOf m i with
      | some l => if m.opened l = 0 then none else some { m with called := a :: m.called }
      | none => some { m with called := a :: m.called }
    | _ => none

def run (os : Os) (m : Mem) : List Op → Option Mem
  | [] => some m
  | o :: ops => (step os m o).bind fun m' => run os m' ops

/-- The end of the program: `null_lib` (lib_loader.hpp:82) is destroyed like every other object. -/
def exit (os : Os) (m : Mem) : Option Mem := close os m none

/-- What becomes of the loader of packages. -/
inductive Start where
  | ready (load error : Nat)
  | died
deriving DecidableEq, Repr

/-- package_symbol_loader.hpp:36-45, the constructor, with the names of the library and of its two symbols: it dies if there is
no library.  `none`: a symbol does not exist. -/
def start (os : Os) (path loadSym errorSym : Nat) : Option Start :=
  match os.find path with
  | none => some .died
  | some l => (os.symbols l loadSym).bind fun a => (os.symbols l errorSym).map fun e => .ready a e

end ELC.Lib
