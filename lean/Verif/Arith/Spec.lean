import Mathlib.Data.Nat.Prime.Basic
import Mathlib.Algebra.BigOperators.Group.Finset.Basic
/-! What is asked of the integer functions. -/
namespace ELC.Arith.Spec

/-- The call, with enough steps, returns `v`. -/
def Returns {β : Type} (f : Nat → Option β) (v : β) : Prop := ∃ F, ∀ fuel ≥ F, f fuel = some v

/-- The call does not return, however many steps are allowed. -/
def NeverReturns {β : Type} (f : Nat → Option β) : Prop := ∀ fuel, f fuel = none

/-- `k` is the integer logarithm of `a` to the base `b`. -/
def IsLog (a b k : Nat) : Prop := b ^ k ≤ a ∧ a < b ^ (k + 1)

/-- `p` is the least prime that is not below `a`. -/
def NextPrime (a p : Nat) : Prop := p.Prime ∧ a ≤ p ∧ ∀ q, q.Prime → a ≤ q → p ≤ q

/-- `p` is the greatest prime that is not above `a`. -/
def PrevPrime (a p : Nat) : Prop := p.Prime ∧ p ≤ a ∧ ∀ q, q.Prime → q ≤ a → q ≤ p

/-- `start * (start + 1) * …`, `n` factors. -/
def rising (start n : Nat) : Nat := ∏ i ∈ Finset.range n, (start + i)

/-- What the proofs need of the floating-point square root: not below the true root, and well below the number. -/
def Root (root : Nat → Nat) : Prop := ∀ a, 5 ≤ a → a < (root a + 1) * (root a + 1) ∧ root a + 2 < a

/-- What is asked of a candidate prime: no divisor `6k+5` up to the root, and none two above such a number. -/
def Passes (root : Nat → Nat) (x : Nat) : Prop := ∀ k, 6 * k + 5 ≤ root x → ¬ (6 * k + 5 ∣ x) ∧ ¬ (6 * k + 7 ∣ x)

end ELC.Arith.Spec
