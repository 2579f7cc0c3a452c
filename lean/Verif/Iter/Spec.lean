import Verif.Iter.Model
/-! What is asked of iterators and counted loops. -/
namespace ELC.Iter.Spec
open ELC.Iter

/-- Which way an iterator goes. -/
def sign : Kind → Int
  | .ptr => 1
  | .idx => 1
  | .ptrRev => -1
  | .idxRev => -1

/-- The iterator `n` places further on in its direction (back for negative `n`). -/
def moved (i : It) (n : Int) : It := ⟨i.kind, i.pos + sign i.kind * n⟩

/-- The values of a type. -/
def IntTy.has (t : IntTy) (x : Int) : Prop :=
  if t.signed then -2 ^ (t.bits - 1) ≤ x ∧ x < 2 ^ (t.bits - 1) else 0 ≤ x ∧ x < 2 ^ t.bits

/-- The body carried out for 0, 1, …, `n`-1. -/
def counted {S : Type} (body : Int → S → S) (n : Nat) (s : S) : S := (List.range n).foldl (fun s (i : Nat) => body i s) s

/-- The bits of a bit set. -/
def bits (b : Bits) : List Bool := (List.range b.num).map fun i => ((b.data[i / 8]?).getD 0).testBit (i % 8)

/-- A bit set as the code has it: bytes enough for its bits, and no more. -/
def Bits.Ok (b : Bits) : Prop := b.data.length = (b.num + 7) / 8

end ELC.Iter.Spec
