/-
What sorting means, for a memory `Nat → α` and a range of addresses.
-/
namespace ELC.Sort.Spec
variable {α : Type}

/-- The contents of the addresses `b, …, e-1`. -/
def segment (m : Nat → α) (b e : Nat) : List α := (List.range' b (e - b)).map m

/-- In the segment no element compares greater than a later one. -/
def SortedSegment (cmp : α → α → Ordering) (m : Nat → α) (b e : Nat) : Prop :=
  (segment m b e).Pairwise (fun x y => cmp x y ≠ .gt)

/-- A correct sort of `[b,e)`: the segment ends up sorted, is a rearrangement of what it was, and no
address outside is changed. -/
def Sorts (cmp : α → α → Ordering) (m m' : Nat → α) (b e : Nat) : Prop :=
  SortedSegment cmp m' b e ∧ (segment m' b e).Perm (segment m b e) ∧
    ∀ k, k < b ∨ e ≤ k → m' k = m k

/-- Two memories have the same contents on `[b,e)`. -/
def AgreeOn (m m' : Nat → α) (b e : Nat) : Prop := ∀ k, b ≤ k → k < e → m k = m' k

end ELC.Sort.Spec
