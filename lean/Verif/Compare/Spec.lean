/-! What comparisons of sequences mean. -/
namespace ELC.Compare.Spec
variable {α : Type}

/-- The first `i` elements of `a` and `b` compare equal. -/
def SameTo (cmp : α → α → Ordering) (a b : List α) (i : Nat) : Prop :=
  ∀ j < i, ∃ x y, a[j]? = some x ∧ b[j]? = some y ∧ cmp x y = .eq

/-- `i` is the first place where `a` and `b` differ, with the result `o` there. -/
def DiffAt (cmp : α → α → Ordering) (a b : List α) (i : Nat) (o : Ordering) : Prop :=
  SameTo cmp a b i ∧ ∃ x y, a[i]? = some x ∧ b[i]? = some y ∧ o = cmp x y ∧ o ≠ .eq

/-- `o` is the result at the first difference among the first `n` elements, `eq` when there is none. -/
def ByContent (cmp : α → α → Ordering) (a b : List α) (n : Nat) (o : Ordering) : Prop :=
  (∃ i < n, DiffAt cmp a b i o) ∨ (SameTo cmp a b n ∧ o = .eq)

/-- The order by length, then by content. -/
def ByLength (cmp : α → α → Ordering) (a b : List α) (o : Ordering) : Prop :=
  (a.length < b.length ∧ o = .lt) ∨ (b.length < a.length ∧ o = .gt) ∨
    (a.length = b.length ∧ ByContent cmp a b a.length o)

/-- The dictionary order. -/
def Dictionary (cmp : α → α → Ordering) (a b : List α) (o : Ordering) : Prop :=
  (∃ i, DiffAt cmp a b i o) ∨ (SameTo cmp a b a.length ∧ a.length < b.length ∧ o = .lt) ∨
    (SameTo cmp a b b.length ∧ b.length < a.length ∧ o = .gt) ∨
    (SameTo cmp a b a.length ∧ a.length = b.length ∧ o = .eq)

/-- `mem` holds the zero-terminated sequence `s`. -/
def Terminated (zero : α) (s mem : List α) : Prop := zero ∉ s ∧ ∃ rest, mem = s ++ zero :: rest

end ELC.Compare.Spec
