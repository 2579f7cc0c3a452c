/-!
The mode of terminals: `S/APIs/streams.hpp:72-90, 195-217, 289-342`, `F/stream/base_fstream/_body.hpp:101-114, 125-155` and
`F/stream/defs.hpp:225-262`.

A terminal has one mode, shared by everybody who uses it.  A read has two steps that touch it, before and after the read itself,
and steps of other threads can come between.  What is read and written is in the areas File and Stream.
-/
namespace ELC.Term

/-- The two systems `streams.hpp` knows. -/
inductive Sys where
  | windows | linux
deriving DecidableEq, Repr

/-- What is behind a handle: a terminal, another device for characters (`NUL`, a serial port), or anything else. -/
inductive Dev where
  | terminal | device | file
deriving DecidableEq, Repr

/-- The mode of a terminal: line by line input (`ENABLE_LINE_INPUT`, `ICANON`), echo, interpretation of escape sequences and of
control characters when writing and wrapping (`ENABLE_VIRTUAL_TERMINAL_PROCESSING` and others), and the rest. -/
structure Mode where
  line : Bool
  echo : Bool
  escapes : Bool
  rest : Nat
deriving DecidableEq, Repr

/-- S/APIs/streams.hpp:72-78 `is_terminal_stream`: `FILE_TYPE_CHAR` is every device for characters, `isatty` is exact. -/
def isTerminal : Sys → Dev → Bool
  | _, .terminal => true
  | .windows, .device => true
  | .linux, .device => false
  | _, .file => false

/-- `GetConsoleMode`, `tcgetattr`: without a terminal they fail, and the variable keeps no value. -/
def getMode (d : Dev) (m : Mode) : Option Mode := if d = .terminal then some m else none

/-- `SetConsoleMode`, `tcsetattr`: without a terminal they fail without effect. -/
def setMode (d : Dev) (m new : Mode) : Mode := if d = .terminal then new else m

/-- S/APIs/streams.hpp:290-310 `before_terminal_read`: the mode that is kept and the mode of the terminal afterwards; `none`: a
variable without a value is used. -/
def beforeRead (s : Sys) (d : Dev) (m : Mode) : Option (Mode × Mode) :=
  (getMode d m).map fun b =>
    match s with
    | .windows => (b, setMode d m { b with line := false })
    | .linux => (b, setMode d m { b with line := false, echo := false })

/-- S/APIs/streams.hpp:312-318 `after_terminal_read`. -/
def afterRead (d : Dev) (m kept : Mode) : Mode := setMode d m kept

/-- Reads of a terminal by several threads: the mode, and what each thread keeps that is reading. -/
structure St where
  mode : Mode
  kept : Nat → Option Mode

/-- The steps of threads, and reading characters, which does not touch the mode. -/
inductive Ev where
  /-- before the read (F/stream/base_fstream/_body.hpp:134) -/
  | enter (t : Nat)
  /-- after the read (F/stream/base_fstream/_body.hpp:136) -/
  | leave (t : Nat)
deriving DecidableEq, Repr

/-- Replace one value of a function. -/
def set (f : Nat → Option Mode) (i : Nat) (a : Option Mode) : Nat → Option Mode := fun j => if j = i then a else f j

/-- F/stream/base_fstream/_body.hpp:133-138 `base_read_impl_for_wrapper`, one step of it.  `none` is undefined, or a step
that the thread cannot make now. -/
def step (s : Sys) (d : Dev) (x : St) : Ev → Option St
  | .enter t =>
    match x.kept t with
    | some _ => none
    | none => (beforeRead s d x.mode).map fun p => ⟨p.2, set x.kept t (some p.1)⟩
  | .leave t =>
    match x.kept t with
    | none => none
    | some k => some ⟨afterRead d x.mode k, set x.kept t none⟩

/-- A schedule. -/
def run (s : Sys) (d : Dev) (x : St) : List Ev → Option St
  | [] => some x
  | e :: r => (step s d x e).bind fun x => run s d x r

/-- S/APIs/streams.hpp:320-332 `before_terminal_write`: what is kept and the mode of the terminal; on Linux nothing. -/
def beforeWrite (s : Sys) (d : Dev) (m : Mode) : Option (Option Mode × Mode) :=
  match s with
  | .windows => (getMode d m).map fun b => (some b, setMode d m { b with escapes := true })
  | .linux => some (none, m)

/-- S/APIs/streams.hpp:334-340 `after_terminal_write`. -/
def afterWrite (d : Dev) (m : Mode) : Option Mode → Mode
  | some k => setMode d m k
  | none => m

/-- F/stream/base_fstream/_body.hpp:109-113 `write` of a stream onto a file: the mode while the system writes, and afterwards. -/
def fileWrite (s : Sys) (d : Dev) (m : Mode) : Option (Mode × Mode) :=
  (beforeWrite s d m).map fun p => (p.2, afterWrite d p.2 p.1)

/-- F/stream/base_fstream/_body.hpp:149-151 `write` of a stream onto a terminal: it replaces the other and does not touch the
mode. -/
def terminalWrite (m : Mode) : Mode × Mode := (m, m)

/-- F/stream/defs.hpp:254-258, 263: a stream onto a handle takes one of them. -/
def write (s : Sys) (d : Dev) (m : Mode) : Option (Mode × Mode) :=
  if isTerminal s d then some (terminalWrite m) else fileWrite s d m

/-- F/stream/defs.hpp:234-238, 243: what reading once through a stream onto a handle does to the mode: streams onto files leave
it alone (F/stream/base_fstream/_body.hpp:87-89).  The mode while the system reads, and afterwards. -/
def read (s : Sys) (d : Dev) (m : Mode) : Option (Mode × Mode) :=
  if isTerminal s d then (beforeRead s d m).map fun p => (p.2, afterRead d p.2 p.1) else some (m, m)

end ELC.Term
