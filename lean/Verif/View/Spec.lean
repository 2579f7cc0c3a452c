import Verif.View.Model

/-! What a view of an array is. -/
namespace ELC.View.Spec

/-- The view lies in the block. -/
def Inside (mem : List Nat) (v : View) : Prop := v.begin + v.size ≤ mem.length ∧ v.size < 2 ^ 64

/-- The elements of the view. -/
def text (mem : List Nat) (v : View) : List Nat := (mem.drop v.begin).take v.size

/-- At `p` there is the array `s` that ends with zero. -/
def ZeroEnded (mem : List Nat) (p : Nat) (s : List Nat) : Prop :=
  0 ∉ s ∧ ∃ rest, mem.drop p = s ++ 0 :: rest

end ELC.View.Spec
