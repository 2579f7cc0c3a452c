import Verif.Alloc.Model
/-! What is asked of allocation. -/
namespace ELC.Alloc.Spec
open ELC.Alloc

/-- The two families of systems. -/
inductive Sys where
  | posix
  | windows
deriving DecidableEq, Repr

/-- The alignment that the C library promises for what it gives at `realloc`: `::std::realloc` knows no alignment and promises
the one of `max_align_t` (16). -/
def Sys.reallocAlign : Sys → Nat → Nat
  | .posix, _ => 16
  | .windows, align => align

/-- `n` bytes at `a` and `m` bytes at `b` have nothing in common. -/
def Apart (a n b m : Nat) : Prop := a + n ≤ b ∨ b + m ≤ a

/-- What the C library promises: aligned, not null, below 2^64, apart from the other blocks. -/
def Gives (others : List (Nat × Nat)) (align size : Nat) (g : Given) : Prop :=
  ∀ p fill, g = some (p, fill) → align ∣ p ∧ 0 < p ∧ p + size ≤ 2 ^ 64 ∧ ∀ b ∈ others, Apart p size b.1 b.2

/-- Types are like this: alignments are powers of two that divide the size. -/
def Ty.Ok (t : Ty) : Prop := 0 < t.size ∧ (∃ k, t.align = 2 ^ k) ∧ t.align ∣ t.size

/-- The bytes asked for, and a bit for the size kept with them, are fewer than 2^64. -/
def Ty.Fits (t : Ty) (n : Nat) : Prop := t.size * n + max t.align 8 < 2 ^ 64

/-- An array the program has: where it is, of what type, how many elements. -/
structure Arr where
  ptr : Nat
  ty : Ty
  n : Nat
deriving DecidableEq, Repr

/-- Its size in bytes. -/
def Arr.bytes (b : Arr) : Nat := b.ty.size * b.n

/-- The bytes in all arrays. -/
def total (l : List Arr) : Nat := (l.map Arr.bytes).sum

/-- Programs that use allocation as they should: the states they reach, the arrays they have then, and the largest number of
bytes that they had in arrays so far. -/
inductive Reach (sys : Sys) : State → List Arr → Nat → Prop where
  | init {mem} : Reach sys (State.init mem) [] 0
  | alloc {s l m t n g p s'} : Reach sys s l m → Ty.Ok t → Ty.Fits t n →
      Gives s.heap.blocks (headAlign t.align) (fullSize (t.size * n) t.align) g →
      alloc s t n g = .ok (.ptr p, s') → Reach sys s' (⟨p, t, n⟩ :: l) (max m (total (⟨p, t, n⟩ :: l)))
  | realloc {s l m b n g p s'} : Reach sys s l m → b ∈ l → Ty.Fits b.ty n →
      Gives (s.heap.blocks.filter fun x => x.1 ≠ b.ptr - offset b.ty.align) (sys.reallocAlign (headAlign b.ty.align))
        (fullSize (b.ty.size * n) b.ty.align) g →
      realloc s b.ty (some b.ptr) n g = .ok (.ptr p, s') →
      Reach sys s' (⟨p, b.ty, n⟩ :: l.filter fun x => x.ptr ≠ b.ptr)
        (max m (total (⟨p, b.ty, n⟩ :: l.filter fun x => x.ptr ≠ b.ptr)))
  | free {s l m b s'} : Reach sys s l m → b ∈ l → free s b.ty (some b.ptr) = .ok s' →
      Reach sys s' (l.filter fun x => x.ptr ≠ b.ptr) m
  | write {s l m b i v} : Reach sys s l m → b ∈ l → i < b.bytes →
      Reach sys { s with heap := s.heap.write (b.ptr + i) v } l m

/-- Arrays that have nothing in common. -/
def Arr.Apart (b c : Arr) : Prop := Spec.Apart b.ptr b.bytes c.ptr c.bytes

end ELC.Alloc.Spec
