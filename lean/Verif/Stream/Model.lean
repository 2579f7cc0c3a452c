import Verif.Utf.Model
import Verif.Chars.Model

/-
Text streams.  Models
* F/base_stream/base_streams/_body.hpp:113-125 (`peek`, `get`),
* F/base_stream/operators/_body.hpp:49-53, 97-112 (`>>` of a character and of `endline`),
* F/string/defs.hpp:1045-1085, 1086-1127 (`>>` and `getline` of a string),
* F/stream/defs.hpp:88-161 (streams that convert from and to UTF-8, UTF-16, UTF-32),
* F/stream/defs.hpp:275-334 (`in`: the echo).
-/
namespace ELC.Stream

/-! ### Reading words and lines -/

/-- A text stream to read from: the characters it will still deliver and whether `is_end()` becomes
true after them.  (`null_text_stream`, base_streams/_body.hpp:291-303, delivers nothing and never
ends.)  What `unread` takes back is delivered first: C50. -/
structure In where
  text : List Nat
  ends : Bool
deriving DecidableEq, Repr

/-- S/char_set/isX.hpp:106-109 `isspace`; it never reads outside its table: C99. -/
def space (c : Nat) : Bool := Chars.isspace c == some true

/-- F/string/defs.hpp:1049-1050, 1090-1091: `while(isspace(is.peek())) is.get();`.  With no
character left `peek` is zero (base_streams/_body.hpp:113-119). -/
def skipSpace (ends : Bool) : List Nat → Option In
  | [] => if space 0 then none else some ⟨[], ends⟩
  | c :: r => if space c then skipSpace ends r else some ⟨c :: r, ends⟩

/-- F/string/defs.hpp:1081-1082: `while(!is.is_end()&&!isspace(is.peek())) str+=is.get();`.  `none`:
the loop never comes to an end. -/
def takeWord (ends : Bool) (str : List Nat) : List Nat → Option (List Nat × In)
  | [] => if ends then some (str, ⟨[], ends⟩)
    else if space 0 then some (str, ⟨[], ends⟩) else none
  | c :: r => if space c then some (str, ⟨c :: r, ends⟩) else takeWord ends (str ++ [c]) r

/-- F/string/defs.hpp:1045-1085 `operator>>` of a string: the string and the stream afterwards. -/
def readWord (s : In) : Option (List Nat × In) := do
  let s1 ← skipSpace s.ends s.text
  takeWord s1.ends [] s1.text

/-- F/base_stream/operators/_body.hpp:98-112, 49-53 `endline` read from a stream.  `stream>>ch` reads one
character and is then true if the stream is not at its end.  `waiting`: what
`waitting_for_data()` says. -/
def readEndline (ends waiting : Bool) : List Nat → Option In
  | [] => if ends then some ⟨[], ends⟩ else none
  | c :: r =>
    if r.isEmpty && ends then some ⟨[], ends⟩
    else if c = 0x0a then some ⟨r, ends⟩
    else if c = 0x0d then
      if waiting then some ⟨r, ends⟩
      else
        match r with
        | [] => some ⟨[c], ends⟩
        | d :: r' =>
          if r'.isEmpty && ends then some ⟨r', ends⟩
          else if d ≠ 0x0a then some ⟨d :: r', ends⟩
          else some ⟨r', ends⟩
    else readEndline ends waiting r

/-- F/string/defs.hpp:1122-1123: the characters up to a line end. -/
def takeLine (ends : Bool) (str : List Nat) : List Nat → Option (List Nat × In)
  | [] => if ends then some (str, ⟨[], ends⟩) else none
  | c :: r =>
    if c ≠ 0x0d ∧ c ≠ 0x0a then takeLine ends (str ++ [c]) r else some (str, ⟨c :: r, ends⟩)

/-- F/string/defs.hpp:1086-1127 `getline`. -/
def getline (waiting : Bool) (s : In) : Option (List Nat × In) := do
  let s1 ← skipSpace s.ends s.text
  let (str, s2) ← takeLine s1.ends [] s1.text
  let s3 ← readEndline s2.ends waiting s2.text
  return (str, s3)

/-! ### Streams that convert -/

/-- The type of the characters of the stream below. -/
inductive Code
  | utf8 | utf16 | utf32
deriving DecidableEq, Repr

/-- S/char_set/convert.hpp:38-39 `to_u32_code_size`: the size of the buffer for conversion. -/
def bufSize : Code → Nat
  | .utf8 => 4
  | .utf16 => 2
  | .utf32 => 1

/-- S/char_set/convert.hpp:502-510 `auto_to_utf32`; lines 452-464 `utf32_to_utf32` copies. -/
def autoToUtf32 : Code → List Nat → Utf.Result
  | .utf8, l => Utf.utf8ToUtf32 l
  | .utf16, l => Utf.utf16ToUtf32 l
  | .utf32, l => ⟨true, l.length, l⟩

/-- S/char_set/convert.hpp:491-499 `utf32_to_auto` of one character. -/
def utf32ToAuto : Code → Nat → Utf.Result
  | .utf8, c => Utf.utf32ToUtf8 [c]
  | .utf16, c => Utf.utf32ToUtf16 [c]
  | .utf32, c => ⟨true, 1, [c]⟩

/-- What becomes of a read or a write: it returns, the program dies with a message
(`code_convert_error`), or it writes past the end of a buffer. -/
inductive Outcome (A : Type)
  | ok (a : A)
  | dies
  | overflow
deriving DecidableEq, Repr

/-- F/stream/defs.hpp:112-130 `read` of `size` characters.  `src` is what the stream below has,
`ks` how much it delivers at most at each of its reads (everything asked for when the list is used
up); `got` are the characters read so far.  Result: the characters and what the stream below has
left.  A conversion that succeeds has processed all it got, one that fails does not return, so the
`unread` gives nothing back; it is kept. -/
def convRead (k : Code) (size : Nat) (ks : List Nat) (got : List Nat) (src : List Nat) :
    Outcome (List Nat × List Nat) :=
  if size ≤ got.length then .ok (got, src)
  else
    let n := min (ks.headD (bufSize k)) (bufSize k)
    let chunk := src.take n
    if h : chunk.length = 0 then .ok (got, src)
    else
      let r := autoToUtf32 k chunk
      if ¬ r.success then .dies
      else if size < got.length + r.output.length then .overflow
      else
        let back := chunk.drop r.processed
        if hb : chunk.length ≤ back.length then .ok (got ++ r.output, src)
        else convRead k size ks.tail (got ++ r.output) (back ++ src.drop n)
termination_by src.length
decreasing_by
  have e1 : chunk.length + (src.drop n).length = src.length := by
    rw [← List.length_append, List.take_append_drop]
  have e2 : (back ++ src.drop n).length = back.length + (src.drop n).length := List.length_append
  have e3 : (back ++ src.drop n).length < src.length := by omega
  exact e3

/-- base_streams/_body.hpp:173-178 `get` of the converting stream: `read(&buf,1)`. -/
def convGet (k : Code) (ks : List Nat) (src : List Nat) : Outcome (Nat × List Nat) :=
  match convRead k 1 ks [] src with
  | .ok (got, rest) => .ok (got.headD 0, rest)
  | .dies => .dies
  | .overflow => .overflow

/-- F/stream/defs.hpp:148-160 `write`: what the stream below has been given before, and the outcome.
A program that dies has still written `out`. -/
def convWrite (k : Code) (out : List Nat) : List Nat → List Nat × Outcome Unit
  | [] => (out, .ok ())
  | c :: r =>
    let res := utf32ToAuto k c
    if bufSize k < res.output.length then (out, .overflow)
    else if ¬ res.success then (out, .dies)
    else convWrite k (out ++ res.output) r

/-! ### The echo of `in` -/

/-- F/stream/defs.hpp:292-307: what is echoed for the characters `str`; `none` in it are cells of the
buffer nothing has been read into. -/
def echoText (str : List (Option Nat)) (out : List (Option Nat)) : List (Option Nat) :=
  match str with
  | [] => out
  | c :: r =>
    match _h : (c :: r).findIdx? (· == some 0x0d) with
    | none => out ++ (c :: r)
    | some pos =>
      let out := out ++ (c :: r).take pos
      if (c :: r)[pos + 1]? = some (some 0x0a) then
        echoText ((c :: r).drop (pos + 2)) (out ++ [some 0x0a])
      else echoText ((c :: r).drop (pos + 1)) (out ++ [some 0x0a])
termination_by str.length
decreasing_by
  all_goals simp only [List.length_drop, List.length_cons]; omega

/-- F/stream/defs.hpp:275-282 `in_impl_t`: what the stream below delivers still, `_unread_size`, and
what has been echoed. -/
structure Echo where
  rest : List Nat
  unreadSize : Nat
  out : List (Option Nat)
deriving DecidableEq, Repr

/-- F/stream/defs.hpp:286-314 `read` of `size` characters, of which the stream below delivers at
most `k`. -/
def echoRead (s : Echo) (size k : Nat) : List Nat × Echo :=
  let got := s.rest.take (min k size)
  let aret := got.length
  let buf : List (Option Nat) := got.map some ++ List.replicate (size - aret) none
  let out :=
    if aret > s.unreadSize then
      let tieSize := aret - s.unreadSize
      echoText ((buf.drop (size - tieSize)).take tieSize) s.out
    else s.out
  let unread := if aret ≤ s.unreadSize then s.unreadSize - aret else 0
  (got, ⟨s.rest.drop (min k size), unread, out⟩)

/-- F/stream/defs.hpp:324-327 `unread`. -/
def echoUnread (s : Echo) (data : List Nat) : Echo :=
  { s with rest := data ++ s.rest, unreadSize := s.unreadSize + data.length }

end ELC.Stream
