import Verif.Utf.Spec
import Verif.Stream.Model

/-
Specification of the text streams: encodings, words, lines and newlines, independently of how the
streams work.
-/
namespace ELC.Stream.Spec

/-- How one character is encoded. -/
def encode : Code → Nat → List Nat
  | .utf8, c => Utf.Spec.utf8 c
  | .utf16, c => Utf.Spec.utf16 c
  | .utf32, c => [c]

/-- How a text is encoded. -/
def encodeText (k : Code) (s : List Nat) : List Nat := s.flatMap (encode k)

/-- The characters that can be encoded. -/
def Encodable (k : Code) (c : Nat) : Prop := k = .utf32 ∨ Utf.Spec.IsCodePoint c

/-- The units a stream of that type consists of. -/
def IsUnit : Code → Nat → Prop
  | .utf8, u => u < 2 ^ 8
  | .utf16, u => u < 2 ^ 16
  | .utf32, _ => True

/-- The characters with the property White_Space of Unicode, and the information separators U+001C to
U+001F. -/
def IsSpace (c : Nat) : Prop :=
  (9 ≤ c ∧ c ≤ 13) ∨ (28 ≤ c ∧ c ≤ 32) ∨ c = 0x85 ∨ c = 0xa0 ∨ c = 0x1680 ∨ (0x2000 ≤ c ∧ c ≤ 0x200a) ∨
    c = 0x2028 ∨ c = 0x2029 ∨ c = 0x202f ∨ c = 0x205f ∨ c = 0x3000

instance (c : Nat) : Decidable (IsSpace c) := by unfold IsSpace; infer_instance

/-- The words of a text: what is between white space. -/
def words (t : List Nat) : List (List Nat) :=
  (t.splitOnP (fun c => decide (IsSpace c))).filter (fun w => !w.isEmpty)

/-- A program that reads `n` words. -/
def readWords : Nat → In → Option (List (List Nat))
  | 0, _ => some []
  | n + 1, s => do
    let (w, s') ← readWord s
    let ws ← readWords n s'
    return w :: ws

/-- A program that reads `n` lines. -/
def readLines (waiting : Bool) : Nat → In → Option (List (List Nat))
  | 0, _ => some []
  | n + 1, s => do
    let (l, s') ← getline waiting s
    let ls ← readLines waiting n s'
    return l :: ls

/-- The three ways to end a line. -/
inductive Newline
  | lf | crlf | cr
deriving DecidableEq, Repr

def Newline.text : Newline → List Nat
  | .lf => [0x0a]
  | .crlf => [0x0d, 0x0a]
  | .cr => [0x0d]

/-- A line that can be told from white space before it and from line ends. -/
def Plain (l : List Nat) : Prop :=
  (∃ c r, l = c :: r ∧ ¬ IsSpace c) ∧ 0x0a ∉ l ∧ 0x0d ∉ l

/-- `"\r\n"` and `'\r'` become `'\n'`. -/
def normalise : List Nat → List Nat
  | [] => []
  | [c] => [if c = 0x0d then 0x0a else c]
  | c :: d :: r =>
    if c = 0x0d ∧ d = 0x0a then 0x0a :: normalise r
    else (if c = 0x0d then 0x0a else c) :: normalise (d :: r)

/-- What a program does with `in`: it reads `n` characters that are all there, or gives the last `n`
back. -/
inductive Op
  | read (n : Nat)
  | unread (n : Nat)
deriving DecidableEq, Repr

/-- Where the program is in the text, and how far it has ever been. -/
def track : Nat × Nat → Op → Nat × Nat
  | (pos, high), .read n => (pos + n, max high (pos + n))
  | (pos, high), .unread n => (pos - n, high)

/-- The operations make sense for the text. -/
def Legal (text : List Nat) : Nat → List Op → Prop
  | _, [] => True
  | pos, .read n :: r => pos + n ≤ text.length ∧ Legal text (pos + n) r
  | pos, .unread n :: r => n ≤ pos ∧ Legal text (pos - n) r

/-- The operations on the stream. -/
def perform (text : List Nat) (s : Echo) (pos : Nat) : List Op → Echo
  | [] => s
  | .read n :: r => perform text (echoRead s n n).2 (pos + n) r
  | .unread n :: r => perform text (echoUnread s ((text.take pos).drop (pos - n))) (pos - n) r

end ELC.Stream.Spec
