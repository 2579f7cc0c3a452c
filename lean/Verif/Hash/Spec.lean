/-
Specification of the array hash, independent of the loops of the code:
element number `i` (counted from 0) contributes its hash rotated left by `i+1`
bit positions, and the contributions are combined by exclusive or.
-/
namespace ELC.Hash.Spec

/-- XOR over the elements of `a`, the first one being element number `i`. -/
def arrayHashFrom {α : Type} (h : α → BitVec 64) (i : Nat) : List α → BitVec 64
  | [] => 0#64
  | x :: xs => (h x).rotateLeft (i + 1) ^^^ arrayHashFrom h (i + 1) xs

/-- The hash of a whole array. -/
def arrayHash {α : Type} (h : α → BitVec 64) (a : List α) : BitVec 64 := arrayHashFrom h 0 a

end ELC.Hash.Spec
