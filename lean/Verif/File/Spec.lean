import Verif.File.Model
/-! What is asked of streams onto files. -/
namespace ELC.File.Spec
open ELC.File

/-- The file behind a stream, and where it is read next. -/
def at? (os : Os) (s : Stream) : Option (List Nat × Nat) := (os.opened s.handle).map fun d => (os.files d.file, d.pos)

/-- What is still to be read: what was put back, and the file from the place on. -/
def ahead (os : Os) (s : Stream) : List Nat :=
  s.back ++ match at? os s with
    | some (f, p) => f.drop p
    | none => []

/-- Calls of one reader: reading with what the system does then, putting back. -/
inductive Op where
  | read (size : Nat) (k : Option Nat)
  | unread (data : List Nat)
deriving DecidableEq, Repr

/-- The data read over a whole history, and the state after it. -/
def run (sys : Sys) : Os → Stream → List Op → List (List Nat) × Os × Stream
  | os, s, [] => ([], os, s)
  | os, s, .read size k :: ops =>
    let (n, data, os, s) := read sys os s size k
    let (rest, r) := run sys os s ops
    (data.take n :: rest, r)
  | os, s, .unread data :: ops => run sys os (unread s data) ops

/-- What such a history should read, from a plain text: each read a piece of what is to come. -/
inductive Reads : List Nat → List Op → List (List Nat) → List Nat → Prop where
  | done {t} : Reads t [] [] t
  | read {t size k ops rest last d} : d <+: t → d.length ≤ size → Reads (t.drop d.length) ops rest last →
      Reads t (.read size k :: ops) (d :: rest) last
  | unread {t data ops out last} : Reads (data ++ t) ops out last → Reads t (.unread data :: ops) out last

/-- Programs with streams that own their files: the openings (numbered), their streams, whether their end was reached. -/
structure World where
  os : Os
  streams : List (Nat × Stream)
  next : Nat

/-- What a program may do: open (the system gives a handle that is not in use), use a stream it has, and end it. -/
inductive Step (sys : Sys) : World → World → Prop where
  | opens {w file h} : w.os.opened h = none → h ≠ 0 →
      Step sys w ⟨(openFile w.os file h w.next).1, (w.next, (openFile w.os file h w.next).2) :: w.streams, w.next + 1⟩
  | reads {w i s size k} : (i, s) ∈ w.streams →
      Step sys w { w with
        os := (read sys w.os s size k).2.2.1
        streams := (i, (read sys w.os s size k).2.2.2) :: w.streams.filter fun x => x.1 ≠ i }
  | writes {w i s data k} : (i, s) ∈ w.streams → Step sys w { w with os := write sys w.os s data k }
  | seeks {w i s dir off} : (i, s) ∈ w.streams → Step sys w { w with os := (seek sys w.os s dir off).2 }
  | ends {w i s} : (i, s) ∈ w.streams →
      Step sys w { w with os := destroy w.os s, streams := w.streams.filter fun x => x.1 ≠ i }

/-- The worlds reached from one without open files. -/
inductive Reach (sys : Sys) : World → Prop where
  | start {files} : Reach sys ⟨⟨files, fun _ => none⟩, [], 0⟩
  | step {w w'} : Reach sys w → Step sys w w' → Reach sys w'

end ELC.File.Spec
