/-! What a search looks for. -/
namespace ELC.Search.Spec
variable {α : Type}

/-- The pattern `p` occurs in `r` at position `k`. -/
def OccursAt (p r : List α) (k : Nat) : Prop := ∃ before after, r = before ++ p ++ after ∧ before.length = k

/-- `k` is the first position where `p` occurs. -/
def FirstAt (p r : List α) (k : Nat) : Prop := OccursAt p r k ∧ ∀ j < k, ¬ OccursAt p r j

/-- `k` is the last position where `p` occurs. -/
def LastAt (p r : List α) (k : Nat) : Prop := OccursAt p r k ∧ ∀ j > k, ¬ OccursAt p r j

/-- `o` is the first position of `p`, or `none` when `p` does not occur. -/
def IsFirstOccurrence (p r : List α) : Option Nat → Prop
  | some k => FirstAt p r k
  | none => ∀ k, ¬ OccursAt p r k

/-- `o` is the position of the first element with `P`, or `none` when there is no such element. -/
def IsFirst (P : α → Prop) (r : List α) : Option Nat → Prop
  | some k => (∃ x, r[k]? = some x ∧ P x) ∧ ∀ j < k, ∀ x, r[j]? = some x → ¬ P x
  | none => ∀ x ∈ r, ¬ P x

/-- `o` is the position of the last element with `P`, or `none` when there is no such element. -/
def IsLast (P : α → Prop) (r : List α) : Option Nat → Prop
  | some k => (∃ x, r[k]? = some x ∧ P x) ∧ ∀ j > k, ∀ x, r[j]? = some x → ¬ P x
  | none => ∀ x ∈ r, ¬ P x

end ELC.Search.Spec
