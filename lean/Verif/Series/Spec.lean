import Mathlib.Analysis.SpecialFunctions.Trigonometric.Basic
import Mathlib.Analysis.SpecialFunctions.Trigonometric.Arctan
import Mathlib.Analysis.SpecialFunctions.Pow.Real
import Verif.Series.Model

/-!
What the functions should compute.  The functions themselves are those of Mathlib: `√`, `Real.sin`, `Real.cos`, `Real.arctan`,
`Real.arccos`, `Real.arcsin`, `Real.exp`, `Real.log`, `Real.pi`.
-/
namespace ELC.Series

/-- A computation that ends, with the result `r`: all large numbers of turns give `r`. -/
def Gives {α : Type} (f : ℕ → Option α) (r : α) : Prop := ∃ n, ∀ m, n ≤ m → f m = some r

/-- A computation that never ends. -/
def NeverEnds {α : Type} (f : ℕ → Option α) : Prop := ∀ n, f n = none

/-- `r` is the number `x` up to `ε`. -/
def Within (r : ℚ) (x : ℝ) (ε : ℚ) : Prop := |(r : ℝ) - x| ≤ (ε : ℝ)

/-- The terms of the series of D. V. and G. V. Chudnovsky:
`1/π = 12 Σ (-1)^k (6k)! (545140134 k + 13591409) / ((3k)! (k!)³ 640320^(3k+3/2))`; the factor `640320^(1/2)` is taken
out. -/
noncomputable def chudnovskyTerm (k : ℕ) : ℝ :=
  (Nat.factorial (6 * k) : ℝ) * (545140134 * k + 13591409) /
    ((Nat.factorial (3 * k) : ℝ) * (Nat.factorial k : ℝ) ^ 3 * 640320 ^ (3 * k + 1))

/-- `p` is the number that the series gives for π. -/
def IsChudnovsky (p : ℝ) : Prop :=
  ∃ S : ℝ, Filter.Tendsto (fun n => ∑ k ∈ Finset.range n, (-1 : ℝ) ^ k * chudnovskyTerm k) Filter.atTop (nhds S) ∧
    1 / p = 12 * S / √640320

/-- The states that the object that computes π can be in: any history of calls of its functions that return. -/
inductive Reach : Pi → Prop
  | start : Reach {}
  | step {p p' : Pi} (n : ℕ) (a : Pi.Action) (h : Reach p) (ha : p.act n a = some p') : Reach p'

/-- The same, without direct calls of the improvement of the root on its own. -/
inductive ReachPlain : Pi → Prop
  | start : ReachPlain {}
  | step {p p' : Pi} (n : ℕ) (a : Pi.Action) (h : ReachPlain p) (hs : a ≠ .sqrt) (ha : p.act n a = some p') : ReachPlain p'

end ELC.Series
