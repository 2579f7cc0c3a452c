import Verif.StrEdit.Spec
import Verif.StrCmp.Spec
import Verif.Search.Spec
import Verif.Compare.Spec
import Verif.Text.Model
/-!
What a string means, and when the operations that flatten or read its nodes are right.  Nothing here
refers to the operations of the model.
-/
namespace ELC.Text.Spec
open Hash Str Str.Spec StrEdit StrEdit.Spec StrCmp.Spec Search.Spec
variable {A : Type}

/-- The characters of a string. -/
def text : Text A → List A
  | .lit m => m
  | .chr a => [a]
  | .node n => chars n

/-- A string is in order. -/
def Ok (hc : A → Word) : Text A → Prop
  | .node n => WF hc n
  | _ => True

/-- The string has the node `n`. -/
def OnNode (P : Node A → Prop) : Text A → Prop
  | .node n => P n
  | _ => True

/-- The string is a compile-time text or a single character. -/
def Short : Text A → Prop
  | .node _ => False
  | _ => True

/-- The string is a single character that is not stored in a node. -/
def OneChar : Text A → Prop
  | .chr _ => True
  | _ => False

/-- The node can be made flat: see `RangeClear`. -/
def FlatOk : Node A → Prop
  | .null => True
  | .comn _ _ => True
  | .head h m t ts u => (u = 0 → FlatOk t) ∧ (u ≠ 0 → RangeClear (.head h m t ts u) 0 (u + ts))
  | .endA h m t ts u => (u = 0 → FlatOk t) ∧ (u ≠ 0 → RangeClear (.endA h m t ts u) 0 (u + ts))
  | n => RangeClear n 0 (chars n).length

/-- The node's characters can be pointed to: the text below a substring can be made flat. -/
def DataOk : Node A → Prop
  | .const _ _ => True
  | .substr _ t _ _ => DataOk t
  | n => FlatOk n

/-- As `DataOk`, for a terminated text. -/
def TextOk : Node A → Prop
  | .const _ _ => True
  | .substr h t b s =>
    (b + s = (chars t).length → TextOk t) ∧
    (b + s ≠ (chars t).length → RangeClear (.substr h t b s) 0 s)
  | n => FlatOk n

/-- Characters put before this node are put into the node itself: it has one owner and is of a kind
that grows at its front. -/
def GrowsAtFront : Node A → Prop
  | .substr h _ b _ => h.uniq = true ∧ b = 0
  | .head h _ _ _ _ => h.uniq = true
  | .endA h _ _ _ _ => h.uniq = true
  | .sum h _ _ _ _ => h.uniq = true
  | .erased h _ _ _ _ => h.uniq = true
  | .inserted h _ _ _ _ _ => h.uniq = true
  | _ => False

/-- The same at the back. -/
def GrowsAtBack : Node A → Prop
  | .substr h t b s => h.uniq = true ∧ b + s = (chars t).length
  | .head h _ _ _ _ => h.uniq = true
  | .endA h _ _ _ _ => h.uniq = true
  | .sum h _ _ _ _ => h.uniq = true
  | .erased h _ _ _ _ => h.uniq = true
  | .inserted h _ _ _ _ _ => h.uniq = true
  | _ => False

/-- A short string takes over the node of the operand: it is not empty, not of the size `th` from
which it gets a node of its own, and the operand is a node with `P`. -/
def TakesOver (P : Node A → Prop) (th : Nat) (t str : Text A) : Prop :=
  Short t ∧ text t ≠ [] ∧ (text t).length < th ∧ ∃ m, str = .node m ∧ P m

/-- The node is a flat node with one owner and its hash has been cached. -/
def HasStaleCache : Node A → Prop
  | .comn h _ => h.uniq = true ∧ h.cache ≠ none
  | _ => False

/-- Comparing the two strings for equality is right: nodes are as C61 asks, and short strings have
the same length or a difference in the characters both have. -/
def EqOk : Text A → Text A → Prop
  | .node n, .node m => (chars n).length = (chars m).length → EqReady n m
  | .node n, _ => Sequential n
  | _, .node m => Sequential m
  | t, a => (text t).length = (text a).length ∨
    ∃ i, i < (text t).length ∧ i < (text a).length ∧ (text t)[i]? ≠ (text a)[i]?

/-- The same for the order; short strings have the same length. -/
def CmpOk : Text A → Text A → Prop
  | .node n, .node m => (chars n).length = (chars m).length → CmpReady n m
  | .node n, _ => Sequential n
  | _, .node m => Sequential m
  | t, a => (text t).length = (text a).length

/-- `b` is `a` with every occurrence of `p`, from left to right and without overlap, replaced by
`q`. -/
inductive ReplaceAll (p q : List A) : List A → List A → Prop
  | none {r} : (∀ k, ¬ OccursAt p r k) → ReplaceAll p q r r
  | some {r k o} : FirstAt p r k → ReplaceAll p q (r.drop (k + p.length)) o →
      ReplaceAll p q r (r.take k ++ q ++ o)

/-- The answer of a search that starts at `b`: the first position at or after `b` in the whole
string. -/
def IsFirstFrom (P : A → Prop) (l : List A) (b : Nat) : Option Nat → Prop
  | some k => b ≤ k ∧ (∃ x, l[k]? = some x ∧ P x) ∧ ∀ j, b ≤ j → j < k → ∀ x, l[j]? = some x → ¬ P x
  | none => ∀ j x, b ≤ j → l[j]? = some x → ¬ P x

/-- The same for a pattern. -/
def IsFirstOccurrenceFrom (p l : List A) (b : Nat) : Option Nat → Prop
  | some k => b ≤ k ∧ OccursAt p l k ∧ ∀ j, b ≤ j → j < k → ¬ OccursAt p l j
  | none => ∀ j, b ≤ j → ¬ OccursAt p l j

end ELC.Text.Spec
