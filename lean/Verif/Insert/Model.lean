import Verif.Stdwrap.Model
/-!
Writing a string to a stream of the C++ library, `std::cout << str`: `F/string/defs.hpp`:1153-1206.

The string is given by the pieces in which it writes itself to a stream (they depend on how it is stored; the `StrCmp` modules
say that together they are its text).  Streams are those of the `Stdwrap` modules, with their simplifications.
-/
namespace ELC.Insert

open ELC.Stdwrap (Out outSentry)

variable {A : Type}

/-- A `std::basic_ostream` with its field width, the flag for alignment to the left, and the character for filling up. -/
structure Fmt (A : Type) where
  out : Out A
  width : Int
  left : Bool
  fill : A
deriving DecidableEq, Repr

/-- `rdbuf()->sputc(c)`: `false` stands for `eof()`. -/
def sputc (s : Out A) (c : A) : Bool × Out A :=
  if s.pos < s.cap then (true, { s with text := s.text.take s.pos ++ c :: s.text.drop (s.pos + 1), pos := s.pos + 1 })
  else (false, s)

/-- defs.hpp:1176-1181 and 1190-1195, one of the two loops: how much is left to be filled up, whether a character was not
taken. -/
def padLoop (c : A) : Nat → Out A → Nat × Bool × Out A
  | 0, s => (0, false, s)
  | n+1, s =>
    match sputc s c with
    | (true, s) => padLoop c n s
    | (false, s) => (n+1, true, s)

/-- defs.hpp:1184-1185: the string is written to the wrapped stream, one piece after the other. -/
def writeAll : List (List A) → Out A → Out A
  | [], s => s
  | p :: ps, s => writeAll ps (Stdwrap.write s p)

/-- defs.hpp:1163-1166: how many characters are missing. -/
def padding (width : Int) (size : Nat) : Nat :=
  if width ≤ 0 ∨ width.toNat ≤ size then 0 else width.toNat - size

/-- defs.hpp:1154-1206 `operator<<`. -/
def insert (f : Fmt A) (pieces : List (List A)) : Fmt A :=
  let pad := padding f.width pieces.flatten.length
  match outSentry f.out with
  | (false, s) => { f with out := { s with bad := true } }
  | (true, s) =>
    let r := if !f.left then padLoop f.fill pad s else (pad, false, s)
    let s := if !r.2.1 then writeAll pieces r.2.2 else r.2.2
    if s.fail || s.bad then { f with out := { s with bad := true }, width := 0 }
    else
      let q := padLoop f.fill r.1 s
      { f with out := { q.2.2 with bad := q.2.2.bad || r.2.1 || q.2.1 }, width := 0 }

end ELC.Insert
