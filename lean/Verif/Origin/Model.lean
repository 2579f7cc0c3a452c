/-!
Where memory was allocated: S/APIs/alloc/debug_info/source_location_guard.hpp (the lines below), with the calls of the debug
library in S/APIs/alloc.hpp:134-152.

Built with `ELC_MEMORY_ALLOC_LOCATION_RECORD`, every function that allocates keeps a guard while it runs.  The outermost
guard notes the place in the source from which it was called, and the debug library notes file and line of that place with
each block.  It keeps the pointer to the name of the file, not the name.

Simplifications: a place is what `stacktrace_entry` says about it, file and line; nothing throws; one thread.  Buffers of the
static string that holds the name of the file (46-48) are numbered, and `keep` tells whether an assignment stays in the old
one.
-/
namespace ELC.Origin

/-- A place in the source. -/
structure Loc where
  file : List Nat
  line : Nat
deriving DecidableEq, Repr

/-- 39 `operate_source_frame`, 41-42 `_file` and `_line`; 46 `file_cache` (the number of its buffer and its text); the member
`_is_set` (71) of the guards that exist, innermost first; what the debug library noted for each block, newest first. -/
structure St where
  frame : Option Loc
  filePtr : Option Nat
  line : Nat
  buf : Nat
  cache : List Nat
  guards : List Bool
  blocks : List (Option Nat × Nat)
deriving DecidableEq, Repr

/-- The start of the program. -/
def St.init : St := ⟨none, none, 0, 0, [], [], []⟩

inductive Op where
  /-- a guard begins; `c` is the place the system finds, if it finds one -/
  | enter (c : Option Loc)
  /-- the innermost guard ends -/
  | leave
  | alloc (keep : Bool)
deriving DecidableEq, Repr

/-- 43-54 `file()`. -/
def file (keep : Bool) (s : St) : St :=
  match s.filePtr with
  | some _ => s
  | none =>
    let buf := if keep then s.buf else s.buf + 1
    { s with buf := buf, cache := (s.frame.map (·.file)).getD [], filePtr := some buf }

/-- 55-64 `line()`. -/
def line (s : St) : St := if s.line = 0 then { s with line := (s.frame.map (·.line)).getD 0 } else s

/-- 65-68 `clear()`. -/
def clear (s : St) : St := { s with filePtr := none, line := 0 }

/-- 72-86: the constructor and the destructor of a guard; S/APIs/alloc.hpp:135-140 `aligned_alloc`, 147-152 `aligned_realloc`: the
debug library notes file and line.  `none`: there is no guard to end. -/
def step (s : St) : Op → Option St
  | .enter c =>
    match s.frame with
    | some _ => some { s with guards := false :: s.guards }
    | none => match c with
      | some l => some { s with frame := some l, guards := true :: s.guards }
      | none => some { s with guards := false :: s.guards }
  | .leave =>
    match s.guards with
    | [] => none
    | b :: gs => some (if b then { clear s with frame := none, guards := gs } else { s with guards := gs })
  | .alloc keep =>
    let s' := line (file keep s)
    some { s' with blocks := (s'.filePtr, s'.line) :: s'.blocks }

def run (s : St) : List Op → Option St
  | [] => some s
  | o :: os => (step s o).bind fun s' => run s' os

/-- The file the debug library reports for a block: what its pointer points to now.  `none`: the buffer is gone. -/
def report (s : St) (b : Option Nat × Nat) : Option (List Nat) := if b.1 = some s.buf then some s.cache else none

end ELC.Origin
