/-!
Specification vocabulary for C33 and C34: plain statements about the binary digits of a number.
-/
namespace ELC.Bits.Spec

/-- `z` is the length of the maximal run of `b` at the start of the finite 0/1 sequence
`f 0, f 1, …, f (W-1)`. -/
def RunLength (f : Nat → Bool) (W : Nat) (b : Bool) (z : Nat) : Prop :=
  z ≤ W ∧ (∀ i, i < z → f i = b) ∧ (z < W → f z = !b)

/-- The bits of a `W`-bit word read from the least significant end. -/
def fromRight (v : Nat) : Nat → Bool := fun i => v.testBit i

/-- The bits of a `W`-bit word read from the most significant end. -/
def fromLeft (W v : Nat) : Nat → Bool := fun i => v.testBit (W - 1 - i)

/-- `g` is the number of binary digits of `v`. -/
def BinaryLength (v g : Nat) : Prop := v < 2 ^ g ∧ (v = 0 → g = 0) ∧ (v ≠ 0 → 2 ^ (g - 1) ≤ v)

/-- `f` applied `k` times. -/
def steps {α : Type} (f : α → α) : Nat → α → α
  | 0, x => x
  | k+1, x => f (steps f k x)

end ELC.Bits.Spec
