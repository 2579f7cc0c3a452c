/-! What assigning a range of elements to another range means. -/
namespace ELC.Assign.Spec
variable {α : Type}

/-- In `m'` the `n` elements from `dst` on are those `m` had from `src` on; all others are as they were. -/
def Copied (m m' : List α) (dst src n : Nat) : Prop :=
  m'.length = m.length ∧
  (∀ i < n, m'[dst + i]? = m[src + i]?) ∧ ∀ j, j < dst ∨ dst + n ≤ j → m'[j]? = m[j]?

/-- In `m'` the `n` elements from `dst` on are `v`; all others are as they were. -/
def Filled (m m' : List α) (dst n : Nat) (v : α) : Prop :=
  m'.length = m.length ∧
  (∀ i < n, m'[dst + i]? = some v) ∧ ∀ j, j < dst ∨ dst + n ≤ j → m'[j]? = m[j]?

/-- The ranges share no element. -/
def Apart (dst src n : Nat) : Prop := dst + n ≤ src ∨ src + n ≤ dst

end ELC.Assign.Spec
