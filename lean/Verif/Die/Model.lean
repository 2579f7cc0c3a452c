import Verif.Utf.Model

/-!
How the program dies: `S/APIs/die.hpp`.

The text shown on the error console is a list of units of the console (UTF-16 units on Windows, bytes or characters on Linux)
and changes of its colour.  The C library is modelled where it matters: `stderr` gets an orientation by its first use (C17
7.23.2p4), and then the functions of the other kind fail without writing, as they do in glibc (the standard does not allow the
call).  Memory from a pointer on is the list of the cells that can be read; a read behind its end is undefined, as is a write
behind the end of an array.  Not modelled: the debugger, the message boxes of `_WINMAIN_`, that `fputws` stops at a character
the locale cannot write.
-/
namespace ELC.Die

/-- S/APIs/_tools/decl_system_type.hpp:31-40 `SYSTEM_TYPE`. -/
inductive Sys where
  | windows | linux | other
deriving DecidableEq, Repr

/-- S/basic_environment/after_math.hpp:144-146: `wchar_t` is as wide as `char16_t`, as `char_t`, or neither. -/
inductive Wch where
  | as16 | as32 | neither
deriving DecidableEq, Repr

/-- The orientation of a C stream. -/
inductive Orient where
  | byte | wide
deriving DecidableEq, Repr

/-- What appears on the error console. -/
inductive Item where
  /-- text is red from here on -/
  | red
  /-- text has its former colour from here on -/
  | plain
  /-- a unit of text -/
  | unit (u : Nat)
deriving DecidableEq, Repr

/-- The error console, and the orientation of `stderr`. -/
structure Err where
  orient : Option Orient
  shown : List Item
deriving DecidableEq, Repr

/-- A view of the first `size` characters of readable memory. -/
structure View where
  mem : List Nat
  size : Nat
deriving DecidableEq, Repr

/-- Reading all characters of a view; undefined if some are not in readable memory. -/
def View.read (v : View) : Option (List Nat) := if v.size ≤ v.mem.length then some (v.mem.take v.size) else none

/-- The characters up to the first zero; undefined if there is none in readable memory.
F/base_defs/array_like.hpp:162-171 `get_length_of`, and what the C library does. -/
def cstr : List Nat → Option (List Nat)
  | [] => none
  | c :: r => if c = 0 then some [] else (cstr r).map (c :: ·)

/-- The C library's `fputs`: fails on a wide stream. -/
def fputs (e : Err) (t : List Item) : Err :=
  if e.orient = some .wide then e else ⟨some .byte, e.shown ++ t⟩

/-- The C library's `fputws`: fails on a byte stream. -/
def fputws (e : Err) (t : List Item) : Err :=
  if e.orient = some .byte then e else ⟨some .wide, e.shown ++ t⟩

/-- S/APIs/die.hpp:63-75 `Init_die_state`. -/
def init (s : Sys) (e : Err) : Err :=
  match s with
  | .windows => { e with shown := e.shown ++ [.red] }
  | .linux => fputs e [.red]
  | .other => e

/-- S/APIs/die.hpp:77-83 `ConsoleLog` of a `char` string given by its pointer: the view is made by looking for the zero. -/
def logChar (s : Sys) (e : Err) (mem : List Nat) : Option Err :=
  (cstr mem).map fun t =>
    match s with
    | .windows => { e with shown := e.shown ++ t.map .unit }
    | .linux => fputs e (t.map .unit)
    | .other => e

/-- S/APIs/die.hpp:84-90 `ConsoleLog` of a view of `wchar_t`. -/
def logView (s : Sys) (e : Err) (v : View) : Option Err :=
  match s with
  | .windows => v.read.map fun t => { e with shown := e.shown ++ t.map .unit }
  | .linux => (cstr v.mem).map fun t => fputws e (t.map .unit)
  | .other => some e

/-- S/APIs/die.hpp:84-90 `ConsoleLog` of a `wchar_t` string given by its pointer (F/base_defs/string_view.hpp:118). -/
def logWide (s : Sys) (e : Err) (mem : List Nat) : Option Err :=
  (cstr mem).bind fun t => logView s e ⟨mem, t.length⟩

/-- S/APIs/die.hpp:91-101 `ConsoleLogEnd`. -/
def logEnd (s : Sys) (e : Err) : Err :=
  match s with
  | .windows => { e with shown := e.shown ++ [.plain] }
  | .linux => fputs e [.plain]
  | .other => e

/-- A string literal with its zero. -/
def lit (t : String) : List Nat := t.toList.map Char.toNat ++ [0]

/-- S/APIs/die.hpp:104-117 `die`: what the console shows when the program aborts; `none` is undefined. -/
def die (s : Sys) (e : Err) : Option Err :=
  (logChar s (init s e) (lit "\nelc died.\n")).map (logEnd s)

/-- S/APIs/die.hpp:127,164: the size of the two arrays. -/
def bufSize : Nat := 2048

/-- S/APIs/die.hpp:168-175: the loop with `c32rtomb` (`enc`), writing into the array.  `none` is undefined, `some none` is a
character that the locale cannot write. -/
def mbLoop (enc : Nat → Option (List Nat)) (out : List Nat) : List Nat → Option (Option (List Nat))
  | [] => some (some out)
  | c :: r =>
    match enc c with
    | none => some none
    | some b => if out.length + b.length ≤ bufSize then mbLoop enc (out ++ b) r else none

/-- `out[size]=0` behind what was written into an array (S/APIs/die.hpp:131,176); undefined if the array is full. -/
def terminate (out : List Nat) : Option (List Nat) :=
  if out.length < bufSize then some (out ++ [0]) else none

/-- S/APIs/die.hpp:136-140: the three texts of a wide message that is given by its pointer. -/
def sayWide (s : Sys) (e : Err) (mem : List Nat) : Option Err :=
  (logWide s (init s e) (lit "\nelc died because:\n")).bind fun e =>
  (logWide s e mem).bind fun e =>
  (logWide s e (lit "\n")).map (logEnd s)

/-- S/APIs/die.hpp:147-152: the same for a view of the message. -/
def sayView (s : Sys) (e : Err) (v : View) : Option Err :=
  (logWide s (init s e) (lit "\nelc died because:\n")).bind fun e =>
  (logView s e v).bind fun e =>
  (logWide s e (lit "\n")).map (logEnd s)

/-- S/APIs/die.hpp:180-185: the same for bytes. -/
def sayChar (s : Sys) (e : Err) (mem : List Nat) : Option Err :=
  (logChar s (init s e) (lit "\nelc died because:\n")).bind fun e =>
  (logChar s e mem).bind fun e =>
  (logChar s e (lit "\n")).map (logEnd s)

/-- S/APIs/die.hpp:120-190 `die_with`.  No view is a view of a null pointer: `if(err_msg)` asks for the pointer.
A write behind the array by `utf32_to_utf16` is seen by the number of units it reports, which are those it wrote. -/
def dieWith (s : Sys) (w : Wch) (enc : Nat → Option (List Nat)) (e : Err) (msg : Option View) : Option Err :=
  match msg with
  | none => die s e
  | some v =>
    match w with
    | .as16 => v.read.bind fun t => (terminate (Utf.utf32ToUtf16 t).output).bind (sayWide s e)
    | .as32 => sayView s e v
    | .neither =>
      (v.read.bind (mbLoop enc [])).bind fun r =>
        match r with
        | none => die s e
        | some out => (terminate out).bind (sayChar s e)

end ELC.Die
