/-!
Streams onto files: `S/APIs/streams.hpp`, `F/stream/base_fstream/_body.hpp` and the part of
`F/base_stream/unreadable_wrap/_body.hpp` that stands between them and the reader.

The operating system is modelled as its table of open handles and its files; what it does at a call that may end early is a
parameter.  Characters are bytes (`char8_t`, as in F/stream/defs.hpp:197, 213).  What a stream holds back of data put back with
`unread` is a list here; that the buffer of `unreadable_wrap` works like that, up to 1024 elements, is C50.  Not modelled:
terminals, `sync` and `flush` (files have no buffer here), `is_eof` on Linux (it hands a number to `feof` and does not compile).
-/
namespace ELC.File

/-- An opened file: which one, at which byte, and which opening this is (a number that no other opening has; the operating
system knows openings apart, the program does not see it). -/
structure Desc where
  file : Nat
  pos : Nat
  opening : Nat
deriving DecidableEq, Repr

/-- The operating system. -/
structure Os where
  files : Nat → List Nat
  opened : Nat → Option Desc

/-- What is at `pos` replaced by `data`; a gap before it is filled with zeros. -/
def overwrite (f : List Nat) (pos : Nat) (data : List Nat) : List Nat :=
  f.take pos ++ List.replicate (pos - f.length) 0 ++ data ++ f.drop (pos + data.length)

/-- Replace one value of a function. -/
def set {A : Type} (f : Nat → A) (i : Nat) (a : A) : Nat → A := fun j => if j = i then a else f j

/-- `::read`: up to `n` bytes, and at most `k` of them this time; `none` is an error. -/
def osRead (os : Os) (h n : Nat) (k : Option Nat) : Option (List Nat) × Os :=
  match os.opened h, k with
  | some d, some k =>
    let data := ((os.files d.file).drop d.pos).take (min n k)
    (some data, { os with opened := set os.opened h (some { d with pos := d.pos + data.length }) })
  | _, _ => (none, os)

/-- `::write`: at most `k` bytes of `data` this time; `none` is an error.  The answer is the number of bytes written. -/
def osWrite (os : Os) (h : Nat) (data : List Nat) (k : Option Nat) : Option Nat × Os :=
  match os.opened h, k with
  | some d, some k =>
    let part := data.take k
    if part = [] then (some 0, os)
    else
      (some part.length,
        { files := set os.files d.file (overwrite (os.files d.file) d.pos part)
          opened := set os.opened h (some { d with pos := d.pos + part.length }) })
  | _, _ => (none, os)

/-- `::close`; a number that is not open is an error without effect. -/
def osClose (os : Os) (h : Nat) : Os := { os with opened := set os.opened h none }

/-- The two systems. -/
inductive Sys where
  | posix
  | windows
deriving DecidableEq, Repr

/-- F/base_stream's `seek_type`. -/
inductive Dir where
  | beg
  | cur
  | fin
deriving DecidableEq, Repr

/-- `(LONG)offset`. -/
def toLong (i : Int) : Int := (i + 2 ^ 31) % 2 ^ 32 - 2 ^ 31

/-- The offset as the system gets it. -/
def adjust : Sys → Int → Int
  | .posix, off => off
  | .windows, off => toLong off

/-- Where an offset is counted from. -/
def origin (os : Os) (d : Desc) : Dir → Int
  | .beg => 0
  | .cur => d.pos
  | .fin => (os.files d.file).length

/-- `::lseek`, `SetFilePointer` without a high part: to the place, or `none` and no effect.  `SetFilePointer` fails if the place
does not fit into 32 bits. -/
def osSeek (sys : Sys) (os : Os) (h : Nat) (dir : Dir) (off : Int) : Option Nat × Os :=
  match os.opened h with
  | none => (none, os)
  | some d =>
    let p := origin os d dir + adjust sys off
    if p < 0 ∨ (sys = .windows ∧ 2 ^ 32 ≤ p) then (none, os)
    else (some p.toNat, { os with opened := set os.opened h (some { d with pos := p.toNat }) })

/-- A stream: its handle and what is held back. -/
structure Stream where
  handle : Nat
  back : List Nat
deriving DecidableEq, Repr

/-- `size_t` arithmetic. -/
def wrap (n : Nat) : Nat := n % 2 ^ 64

/-- `(DWORD)size`. -/
def cut : Sys → Nat → Nat
  | .posix, n => n
  | .windows, n => n % 2 ^ 32

/-- streams.hpp:165-179 `basic_read_impl`: the number that is returned, what was put into the buffer.  An error is -1 as a
`size_t`; `ReadFile` sets the number to 0 before. -/
def basicRead (sys : Sys) (os : Os) (h n : Nat) (k : Option Nat) : Nat × List Nat × Os :=
  match osRead os h (cut sys n) k with
  | (some data, os) => (data.length, data, os)
  | (none, os) => ((match sys with | .posix => 2 ^ 64 - 1 | .windows => 0), [], os)

/-- streams.hpp:181-193 `basic_write_impl`; base_fstream/_body.hpp:109-113 `write` does not look at the result. -/
def write (sys : Sys) (os : Os) (s : Stream) (data : List Nat) (k : Option Nat) : Os :=
  (osWrite os s.handle (data.take (cut sys data.length)) k).2

/-- unreadable_wrap/_body.hpp:67-80 `read`: the number returned, what was put into the buffer, and everything afterwards. -/
def read (sys : Sys) (os : Os) (s : Stream) (size : Nat) (k : Option Nat) : Nat × List Nat × Os × Stream :=
  if size = 0 then (0, [], os, s)
  else
    let first := s.back.take size
    let (n, data, os) := basicRead sys os s.handle (size - first.length) k
    (wrap (first.length + n), first ++ data, os, { s with back := s.back.drop size })

/-- unreadable_wrap/_body.hpp:81-90 `unread`. -/
def unread (s : Stream) (data : List Nat) : Stream := { s with back := data ++ s.back }

/-- base_streams/_body.hpp:120-125 `get`; `junk` is what the variable `buf` holds that is not initialised. -/
def get (sys : Sys) (os : Os) (s : Stream) (k : Option Nat) (junk : Nat) : Nat × Os × Stream :=
  let (n, data, os, s) := read sys os s 1 k
  (if n = 0 then 0 else data.headD junk, os, s)

/-- base_streams/_body.hpp:113-119 `peek`. -/
def peek (sys : Sys) (os : Os) (s : Stream) (k : Option Nat) (junk : Nat) : Nat × Os × Stream :=
  let (n, data, os, s) := read sys os s 1 k
  if n = 0 then (0, os, s) else (data.headD junk, os, unread s [data.headD junk])

/-- streams.hpp:242-248 `basic_tell_impl`, base_fstream/_body.hpp:43-45 `tell`.  An error is -1; `SetFilePointer` gives
0xFFFFFFFF then. -/
def tell (sys : Sys) (os : Os) (s : Stream) : Int :=
  match osSeek sys os s.handle .cur 0 with
  | (some p, _) => p
  | (none, _) => match sys with | .posix => -1 | .windows => 2 ^ 32 - 1

/-- streams.hpp:250-288 `basic_seek_impl`, base_fstream/_body.hpp:40-42 `seek`. -/
def seek (sys : Sys) (os : Os) (s : Stream) (dir : Dir) (off : Int) : Int × Os :=
  match sys with
  | .posix =>
    match osSeek .posix os s.handle dir off with
    | (some p, os) => (p, os)
    | (none, os) => (-1, os)
  | .windows =>
    let os := (osSeek .windows os s.handle dir off).2
    (tell .windows os s, os)

/-- base_fstream/_body.hpp:46-48 `seek_to`. -/
def seekTo (sys : Sys) (os : Os) (s : Stream) (pos : Int) : Bool × Os :=
  let (p, os) := seek sys os s .beg pos
  (p == pos, os)

/-- base_fstream/_body.hpp:55-57 `close`: the handle stays in the stream. -/
def close (os : Os) (s : Stream) : Os := osClose os s.handle

/-- base_fstream/_body.hpp:71-74: the end of a stream that owns its file. -/
def destroy (os : Os) (s : Stream) : Os := if s.handle ≠ 0 then close os s else os

/-- A new stream onto a file: the operating system gives the handle `h`, and the constructor (base_fstream/_body.hpp:39) keeps
it. -/
def openFile (os : Os) (file h opening : Nat) : Os × Stream :=
  ({ os with opened := set os.opened h (some ⟨file, 0, opening⟩) }, ⟨h, []⟩)

end ELC.File
