import Verif.Memfile.Model

/-
A file: bytes and a position.
-/
namespace ELC.Memfile.Spec

structure File where
  bytes : List Nat
  pos : Nat
deriving DecidableEq, Repr

/-- What a program does with a file. -/
inductive Op where
  | write (bs : List Nat)
  | read (n : Nat)
  /-- to the beginning, to the end, and from where it is -/
  | rewind
  | toEnd
  | move (d : Int)
  /-- to the byte number `k` -/
  | goTo (k : Nat)
deriving DecidableEq, Repr

/-- What a file does, and what is read.  `none`: the position would not be in the file, or there would be `2^63` bytes. -/
def File.step (f : File) : Op → Option (List Nat × File)
  | .write bs =>
    if f.pos + bs.length < 2 ^ 63 then
      some ([], ⟨f.bytes.take f.pos ++ bs ++ f.bytes.drop (f.pos + bs.length), f.pos + bs.length⟩)
    else none
  | .read n =>
    if n < 2 ^ 63 then
      some ((f.bytes.drop f.pos).take n, ⟨f.bytes, min (f.pos + n) f.bytes.length⟩)
    else none
  | .rewind => some ([], ⟨f.bytes, 0⟩)
  | .toEnd => some ([], ⟨f.bytes, f.bytes.length⟩)
  | .move d =>
    if 0 ≤ (f.pos : Int) + d ∧ (f.pos : Int) + d ≤ f.bytes.length then
      some ([], ⟨f.bytes, ((f.pos : Int) + d).toNat⟩)
    else none
  | .goTo k => if k ≤ f.bytes.length then some ([], ⟨f.bytes, k⟩) else none

/-- Several steps: all that is read. -/
def File.run (f : File) : List Op → Option (List (List Nat) × File)
  | [] => some ([], f)
  | o :: os => (f.step o).bind fun r => (r.2.run os).map fun q => (r.1 :: q.1, q.2)

/-- The same with the stream; `moved` says where the block is after the step, if it had to grow.  To go to a byte the
program takes the pointer to it. -/
def step (gold : Nat → Nat) (m : Mem) : Op × Nat → Option (List (Option Nat) × Mem)
  | (.write bs, moved) => (m.write gold moved bs).map fun m => ([], m)
  | (.read n, _) => m.read n
  | (.rewind, _) => some ([], (m.seekBeg 0).1)
  | (.toEnd, _) => some ([], (m.seekEnd 0).1)
  | (.move d, _) => some ([], (m.seekCur d).1)
  | (.goTo k, _) => some ([], m.seekTo (m.base + k))

/-- Several steps: all that is read. -/
def run (gold : Nat → Nat) (m : Mem) : List (Op × Nat) → Option (List (List (Option Nat)) × Mem)
  | [] => some ([], m)
  | o :: os => (step gold m o).bind fun r => (run gold r.2 os).map fun q => (r.1 :: q.1, q.2)

/-- The bytes the stream holds. -/
def contents (m : Mem) : List (Option Nat) := m.cells.take m.size

end ELC.Memfile.Spec
