/-
What filling should do, without reference to the model.
-/
namespace ELC.Fill.Spec

/-- The bytes of the element with the number `i`, for elements of `size` bytes. -/
def element (size : Nat) (mem : List Nat) (i : Nat) : List Nat := (mem.drop (i * size)).take size

/-- Memory `mem` has become `mem'`: the first `n` elements of `size` bytes are stored as `v`, what follows is as before. -/
def Filled (size n : Nat) (v mem mem' : List Nat) : Prop :=
  mem'.length = mem.length ∧ (∀ i, i < n → element size mem' i = v) ∧ mem'.drop (n * size) = mem.drop (n * size)

/-- The bytes of a value of `size` bytes. -/
def Value (size : Nat) (v : List Nat) : Prop := v.length = size ∧ ∀ b ∈ v, b < 256

/-- The `float`s with the bits `d` and `r`, not NaN, are the same number: the bits agree, or both are a zero. -/
def SameNumber (d r : Nat) : Prop := d = r ∨ (d % 2 ^ 31 = 0 ∧ r % 2 ^ 31 = 0)

end ELC.Fill.Spec
