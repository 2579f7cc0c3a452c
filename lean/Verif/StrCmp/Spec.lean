import Verif.Str.Spec
/-!
When the comparison of two strings is right.  Nothing here refers to the comparing functions.
-/
namespace ELC.StrCmp.Spec
open Str Str.Spec
variable {A : Type}

/-- The node can be read array by array from position `i` on. -/
def ReadsFrom (n : Node A) (i : Nat) : Prop := Sequential n ∧ StartOk n i

/-- No erasure inside the parts that are read array by array, and no two empty runs of different
characters are compared. -/
def EqReady : Node A → Node A → Prop
  | .comn _ _, .comn _ _ => True
  | .const _ _, .const _ _ => True
  | .substr _ t b _, .substr _ t' b' _ =>
    (b = b' → ReadsFrom t b ∧ ReadsFrom t' b) ∧ (b ≠ b' → NoInnerErase t ∧ NoInnerErase t')
  | .head _ _ t _ u, .head _ _ t' _ u' =>
    (u = u' → EqReady t t') ∧ (u ≠ u' → Sequential t ∧ Sequential t')
  | .endA _ _ t _ u, .endA _ _ t' _ u' =>
    (u = u' → EqReady t t') ∧ (u ≠ u' → Sequential t ∧ Sequential t')
  | .sum h x y xs ys, .sum h' x' y' xs' ys' =>
    (xs = xs' → EqReady x x' ∧ EqReady y y') ∧
    (xs ≠ xs' → Sequential (.sum h x y xs ys) ∧ Sequential (.sum h' x' y' xs' ys'))
  | .erased h t ts p s, .erased h' t' ts' p' s' =>
    (p = p' ∧ s = s' → ReadsFrom t (p + s) ∧ ReadsFrom t' (p + s)) ∧
    (¬ (p = p' ∧ s = s') → Sequential (.erased h t ts p s) ∧ Sequential (.erased h' t' ts' p' s'))
  | .inserted h t i ts p s, .inserted h' t' i' ts' p' s' =>
    (p = p' ∧ s = s' → EqReady i i' ∧ EqReady t t') ∧
    (¬ (p = p' ∧ s = s') →
      Sequential (.inserted h t i ts p s) ∧ Sequential (.inserted h' t' i' ts' p' s'))
  | .same _ s v, .same _ _ v' => s ≠ 0 ∨ v = v'
  | n, m => Sequential n ∧ Sequential m

/-- As `EqReady`, for the ordering: substrings that start at the same place must both end where
their texts end, or both end before; after an insertion at the same place the two rests must not be
cut short. -/
def CmpReady : Node A → Node A → Prop
  | .comn _ _, .comn _ _ => True
  | .const _ _, .const _ _ => True
  | .substr _ t b s, .substr _ t' b' s' =>
    (b = b' → ReadsFrom t b ∧ ReadsFrom t' b ∧
      (b + s = (chars t).length ↔ b + s' = (chars t').length)) ∧
    (b ≠ b' → NoInnerErase t ∧ NoInnerErase t')
  | .head _ _ t _ u, .head _ _ t' _ u' =>
    (u = u' → CmpReady t t') ∧ (u ≠ u' → Sequential t ∧ Sequential t')
  | .endA _ _ t _ u, .endA _ _ t' _ u' =>
    (u = u' → CmpReady t t') ∧ (u ≠ u' → Sequential t ∧ Sequential t')
  | .sum h x y xs ys, .sum h' x' y' xs' ys' =>
    (xs = xs' → CmpReady x x' ∧ CmpReady y y') ∧
    (xs ≠ xs' → Sequential (.sum h x y xs ys) ∧ Sequential (.sum h' x' y' xs' ys'))
  | .erased h t ts p s, .erased h' t' ts' p' s' =>
    (p = p' ∧ s = s' → ReadsFrom t (p + s) ∧ ReadsFrom t' (p + s)) ∧
    (¬ (p = p' ∧ s = s') → Sequential (.erased h t ts p s) ∧ Sequential (.erased h' t' ts' p' s'))
  | .inserted h t i ts p s, .inserted h' t' i' ts' p' s' =>
    (p = p' ∧ s = s' → CmpReady i i' ∧ ReadsFrom t p ∧ ReadsFrom t' p ∧
      (s = 0 ∨ p = ts ∨ ts < p + s ∧ s ≤ 2 ^ 64)) ∧
    (¬ (p = p' ∧ s = s') →
      Sequential (.inserted h t i ts p s) ∧ Sequential (.inserted h' t' i' ts' p' s'))
  | .same _ s v, .same _ _ v' => s ≠ 0 ∨ v = v'
  | n, m => Sequential n ∧ Sequential m

/-- No empty run. -/
def NoEmptyRun : Node A → Prop
  | .substr _ t _ _ => NoEmptyRun t
  | .head _ _ t _ _ => NoEmptyRun t
  | .endA _ _ t _ _ => NoEmptyRun t
  | .sum _ x y _ _ => NoEmptyRun x ∧ NoEmptyRun y
  | .erased _ t _ _ _ => NoEmptyRun t
  | .inserted _ t i _ _ _ => NoEmptyRun t ∧ NoEmptyRun i
  | .same _ s _ => s ≠ 0
  | _ => True

end ELC.StrCmp.Spec
