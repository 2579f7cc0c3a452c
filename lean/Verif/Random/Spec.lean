/-! What is expected of random numbers. -/
namespace ELC.Random.Spec

/-- `f` applied `n` times. -/
def times {α : Type} (f : α → α) : Nat → α → α
  | 0, x => x
  | n + 1, x => times f n (f x)

/-- From `x`, all values below `M` are visited within `M` steps, and `x` itself comes back exactly after every `M` steps. -/
def FullPeriod (M : Nat) (f : Nat → Nat) (x : Nat) : Prop :=
  (∀ y, y < M → ∃ n, n < M ∧ times f n x = y) ∧ ∀ n, times f n x = x ↔ M ∣ n

/-- The range asked for, in either order of the bounds. -/
def InRange (excl : Bool) (a b v : Int) : Prop :=
  min a b ≤ v ∧ if excl then v < max a b else v ≤ max a b

end ELC.Random.Spec
