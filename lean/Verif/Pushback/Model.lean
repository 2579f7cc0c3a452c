/-!
Input streams that take data back: `F/base_stream/unreadable_wrap/_body.hpp`.

`A` is the element type.  The wrapped stream is the data it has still to deliver; each read of it may deliver less than asked
for, as much as the history says.  `none` is a read or write outside the buffer.
-/
namespace ELC.Pushback

variable {A : Type}

/-- unreadable_wrap/_body.hpp:55. -/
def defaultSize : Nat := 1024

/-- unreadable_wrap/_body.hpp:57-58, and the wrapped stream. -/
structure Stream (A : Type) where
  buffer : List A
  using_ : Nat
  pos : Nat
  source : List A
deriving DecidableEq

/-- A new stream; `d` is the default element. -/
def start (d : A) (source : List A) : Stream A := ⟨List.replicate defaultSize d, defaultSize, defaultSize, source⟩

/-- `F/base/container/array/defs.hpp`:113-115 `forward_resize`, `F/base/memory/get/defs.hpp`:754-791: the argument is the new
size; elements are given up, or made, at the front. -/
def forwardResize (d : A) (buffer : List A) (toSize : Nat) : List A :=
  if toSize < buffer.length then buffer.drop (buffer.length - toSize)
  else List.replicate (toSize - buffer.length) d ++ buffer

/-- `k` elements of the buffer from `pos` on. -/
def part (buffer : List A) (pos k : Nat) : Option (List A) :=
  if pos + k ≤ buffer.length then some ((buffer.drop pos).take k) else none

/-- Elements of the buffer overwritten from `pos` on. -/
def overwrite (buffer : List A) (pos : Nat) (data : List A) : Option (List A) :=
  if pos + data.length ≤ buffer.length then some (buffer.take pos ++ data ++ buffer.drop (pos + data.length)) else none

/-- The wrapped stream's read of `size` elements, of which it delivers at most `k`. -/
def baseRead (s : Stream A) (size k : Nat) : List A × Stream A :=
  let n := min k size
  (s.source.take n, { s with source := s.source.drop n })

/-- unreadable_wrap/_body.hpp:67-80 `read`. -/
def read (s : Stream A) (size k : Nat) : Option (List A × Stream A) :=
  if size = 0 then some ([], s)
  else if s.pos ≠ s.using_ then
    let readSize := min size (s.using_ - s.pos)
    (part s.buffer s.pos readSize).map fun l =>
      let p := baseRead { s with pos := s.pos + readSize } (size - readSize) k
      (l ++ p.1, p.2)
  else some (baseRead s size k)

/-- unreadable_wrap/_body.hpp:81-91 `unread`. -/
def unread (d : A) (s : Stream A) (data : List A) : Option (Stream A) :=
  if data.length = 0 then some s
  else
    let more := data.length - s.pos
    let s := if s.pos < data.length
      then { s with buffer := forwardResize d s.buffer more, using_ := s.using_ + more, pos := s.pos + more } else s
    (overwrite s.buffer (s.pos - data.length) data).map fun b => { s with buffer := b, pos := s.pos - data.length }

/-- unreadable_wrap/_body.hpp:92-94 `is_end`; the wrapped stream is at its end when it has nothing to deliver. -/
def isEnd (s : Stream A) : Bool := decide (s.pos = s.using_) && s.source.isEmpty

/-- `F/base_stream/base_streams/_body.hpp`:113-119 `peek`; `none` inside stands for the result 0. -/
def peek (d : A) (s : Stream A) (k : Nat) : Option (Option A × Stream A) :=
  (read s 1 k).bind fun p =>
    match p.1 with
    | [] => some (none, p.2)
    | a :: _ => (unread d p.2 [a]).map fun s => (some a, s)

/-- `F/base_stream/base_streams/_body.hpp`:120-125 `get`. -/
def get (s : Stream A) (k : Nat) : Option (Option A × Stream A) := (read s 1 k).map fun p => (p.1.head?, p.2)

/-- What a program does with a stream. -/
inductive Op (A : Type) where
  | read (size k : Nat)
  | unread (data : List A)
  | peek (k : Nat)

/-- One operation, and the data it returns. -/
def exec (d : A) (s : Stream A) : Op A → Option (List A × Stream A)
  | .read size k => read s size k
  | .unread data => (unread d s data).map fun s => ([], s)
  | .peek k => (peek d s k).map fun p => (p.1.toList, p.2)

/-- A history, and the data each operation returned. -/
def run (d : A) : Stream A → List (Op A) → Option (List (List A) × Stream A)
  | s, [] => some ([], s)
  | s, op :: ops => (exec d s op).bind fun p => (run d p.2 ops).map fun q => (p.1 :: q.1, q.2)

end ELC.Pushback
