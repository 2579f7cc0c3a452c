/-!
The streams of the C++ library as streams of ELC: `F/base_stream/std_wrap/_body.hpp`.

`A` is the type of characters, `ws` says which of them are white space.  The streams are string or file streams, and the members
of the C++ library that the wrappers call are modelled as the standard and libstdc++ define them.  Simplifications: a stream has
no other stream tied to it, exceptions of streams are switched off (as they are by default), one thread, and positions fit in
`int_t`.
-/
namespace ELC.Stdwrap

variable {A : Type}

/-- A `std::basic_istream`: its text, the position of reading, its three error bits, and the format flag `skipws`, which is set in
every new stream. -/
structure In (A : Type) where
  text : List A
  pos : Nat
  eof : Bool
  fail : Bool
  bad : Bool
  skipws : Bool
deriving DecidableEq, Repr

/-- `std::ios::good`. -/
def In.good (s : In A) : Bool := !s.eof && !s.fail && !s.bad

/-- The constructor of `std::basic_istream::sentry` and its conversion to `bool`: white space is skipped unless the argument
`noskipws` says otherwise. -/
def sentry (ws : A → Bool) (noskipws : Bool) (s : In A) : Bool × In A :=
  if s.good then
    if s.skipws && !noskipws then
      let p := s.pos + ((s.text.drop s.pos).takeWhile ws).length
      if p < s.text.length then (true, { s with pos := p })
      else (false, { s with pos := p, eof := true, fail := true })
    else (true, s)
  else (false, { s with fail := true })

/-- `std::basic_istream::read` and `gcount`: the characters read. -/
def stdRead (ws : A → Bool) (s : In A) (size : Nat) : List A × In A :=
  match sentry ws true s with
  | (true, s) =>
    let l := (s.text.drop s.pos).take size
    if l.length = size then (l, { s with pos := s.pos + l.length })
    else (l, { s with pos := s.pos + l.length, eof := true, fail := true })
  | (false, s) => ([], s)

/-- `std::basic_istream::tellg`. -/
def stdTell (ws : A → Bool) (s : In A) : Int × In A :=
  match sentry ws true s with
  | (_, s) => (if s.fail || s.bad then -1 else s.pos, s)

/-- `std::basic_istream::seekg` to a position counted from the beginning; there are no positions outside the text. -/
def stdSeek (ws : A → Bool) (s : In A) (target : Int) : In A :=
  match sentry ws true { s with eof := false } with
  | (true, s) => if 0 ≤ target ∧ target ≤ s.text.length then { s with pos := target.toNat } else { s with fail := true }
  | (false, s) => s

/-- `seek_type`. -/
inductive Dir where
  | beg
  | cur
  | fin
deriving DecidableEq, Repr

/-- The position that a direction and a distance name. -/
def whereTo (pos len : Nat) (d : Dir) (off : Int) : Int :=
  match d with
  | .beg => off
  | .cur => pos + off
  | .fin => len + off

/-- _body.hpp:101-117 `read`. -/
def read (ws : A → Bool) (s : In A) (size : Nat) : List A × In A :=
  match sentry ws false s with
  | (true, s) => stdRead ws s size
  | (false, s) => ([], { s with bad := true })

/-- _body.hpp:71-87 `tell`; a new `pos_type` is zero. -/
def tell (ws : A → Bool) (s : In A) : Int × In A :=
  match sentry ws false s with
  | (true, s) => stdTell ws s
  | (false, s) => (-1, { s with bad := true })

/-- _body.hpp:44-70 `seek`. -/
def seek (ws : A → Bool) (s : In A) (d : Dir) (off : Int) : Int × In A :=
  match sentry ws false s with
  | (true, s) =>
    tell ws (stdSeek ws s (whereTo s.pos s.text.length d off))
  | (false, s) => (-1, { s with bad := true })

/-- _body.hpp:88-91 `seek_to`. -/
def seekTo (ws : A → Bool) (s : In A) (pos : Int) : In A := stdSeek ws s pos

/-- _body.hpp:92-100 `sync`, `flush`, `close`: `std::basic_istream::sync`. -/
def sync (ws : A → Bool) (s : In A) : In A := (sentry ws true s).2

/-- What a program does with a wrapped stream. -/
inductive Op where
  | read (size : Nat)
  | tell
  | seek (d : Dir) (off : Int)
  | seekTo (pos : Int)
  | sync
deriving DecidableEq, Repr

/-- What it gets. -/
inductive Res (A : Type) where
  | text (l : List A)
  | num (z : Int)
  | done
deriving DecidableEq, Repr

def exec (ws : A → Bool) (s : In A) : Op → Res A × In A
  | .read n => (.text (read ws s n).1, (read ws s n).2)
  | .tell => (.num (tell ws s).1, (tell ws s).2)
  | .seek d off => (.num (seek ws s d off).1, (seek ws s d off).2)
  | .seekTo p => (.done, seekTo ws s p)
  | .sync => (.done, sync ws s)

def run (ws : A → Bool) : In A → List Op → List (Res A) × In A
  | s, [] => ([], s)
  | s, o :: os => ((exec ws s o).1 :: (run ws (exec ws s o).2 os).1, (run ws (exec ws s o).2 os).2)

/-- The portions of one read after the other. -/
def reads (ws : A → Bool) : In A → List Nat → List (List A) × In A
  | s, [] => ([], s)
  | s, n :: ns => ((read ws s n).1 :: (reads ws (read ws s n).2 ns).1, (reads ws (read ws s n).2 ns).2)

/-! ### output -/

/-- A `std::basic_ostream`: what was written, the position of writing, how long the text can get, and the error bits. -/
structure Out (A : Type) where
  text : List A
  pos : Nat
  cap : Nat
  fail : Bool
  bad : Bool
deriving DecidableEq, Repr

/-- `std::ios::good`. -/
def Out.good (s : Out A) : Bool := !s.fail && !s.bad

/-- The constructor of `std::basic_ostream::sentry`. -/
def outSentry (s : Out A) : Bool × Out A := if s.good then (true, s) else (false, { s with fail := true })

/-- `std::basic_ostream::write`. -/
def stdWrite (s : Out A) (data : List A) : Out A :=
  match outSentry s with
  | (true, s) =>
    let d := data.take (s.cap - s.pos)
    let s := { s with text := s.text.take s.pos ++ d ++ s.text.drop (s.pos + d.length), pos := s.pos + d.length }
    if d.length = data.length then s else { s with bad := true }
  | (false, s) => s

/-- `std::basic_ostream::seekp`. -/
def stdSeekp (s : Out A) (target : Int) : Out A :=
  match outSentry s with
  | (true, s) => if 0 ≤ target ∧ target ≤ s.text.length then { s with pos := target.toNat } else { s with fail := true }
  | (false, s) => s

/-- _body.hpp:175-189 `write`; 198-205 `operator<<` of views is this. -/
def write (s : Out A) (data : List A) : Out A :=
  match outSentry s with
  | (true, s) => stdWrite s data
  | (false, s) => { s with bad := true }

/-- _body.hpp:158-161 `tell`: `std::basic_ostream::tellp`. -/
def outTell (s : Out A) : Int × Out A :=
  match outSentry s with
  | (_, s) => (if s.fail || s.bad then -1 else s.pos, s)

/-- _body.hpp:131-157 `seek`. -/
def outSeek (s : Out A) (d : Dir) (off : Int) : Int × Out A :=
  match outSentry s with
  | (true, s) =>
    outTell (stdSeekp s (whereTo s.pos s.text.length d off))
  | (false, s) => (-1, { s with bad := true })

/-- _body.hpp:162-165 `seek_to`. -/
def outSeekTo (s : Out A) (pos : Int) : Out A := stdSeekp s pos

inductive OutOp (A : Type) where
  | write (data : List A)
  | tell
  | seek (d : Dir) (off : Int)
  | seekTo (pos : Int)
deriving DecidableEq, Repr

/-- The number a program gets, if it gets one. -/
def outExec (s : Out A) : OutOp A → Option Int × Out A
  | .write d => (none, write s d)
  | .tell => (some (outTell s).1, (outTell s).2)
  | .seek d off => (some (outSeek s d off).1, (outSeek s d off).2)
  | .seekTo p => (none, outSeekTo s p)

def outRun : Out A → List (OutOp A) → List (Option Int) × Out A
  | s, [] => ([], s)
  | s, o :: os => ((outExec s o).1 :: (outRun (outExec s o).2 os).1, (outRun (outExec s o).2 os).2)

end ELC.Stdwrap
