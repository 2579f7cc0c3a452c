import Verif.Str.Model
/-!
What a string node stands for, and when a tree of nodes is in order.  Nothing here refers to the
operations of the model.
-/
namespace ELC.Str.Spec
open Hash
variable {A : Type}

/-- The characters a node stands for. -/
def chars : Node A → List A
  | .null => []
  | .comn _ m => m
  | .const _ m => m
  | .substr _ t b s => ((chars t).drop b).take s
  | .head _ m t _ u => m.drop (m.length - u) ++ chars t
  | .endA _ m t _ u => chars t ++ m.take u
  | .sum _ x y _ _ => chars x ++ chars y
  | .erased _ t _ p s => (chars t).take p ++ (chars t).drop (p + s)
  | .inserted _ t i _ p _ => (chars t).take p ++ chars i ++ (chars t).drop p
  | .same _ s v => List.replicate s v

/-- The hash of a sequence of characters (property C26). -/
def hashOf (hc : A → Word) (l : List A) : Word := Hash.Spec.arrayHash hc l

/-- A cached hash is the hash of the characters. -/
def CacheOk (hc : A → Word) (h : Hd) (l : List A) : Prop :=
  ∀ w, h.cache = some w → w = hashOf hc l

/-- A tree is in order: recorded sizes are the sizes of the children, ranges lie inside them, the
part of a buffer in use lies inside the buffer, cached hashes are right. -/
def WF (hc : A → Word) : Node A → Prop
  | .null => True
  | .comn h m => CacheOk hc h m
  | .const h m => CacheOk hc h m
  | .substr h t b s => WF hc t ∧ b + s ≤ (chars t).length ∧
      CacheOk hc h (chars (.substr h t b s))
  | .head h m t ts u => WF hc t ∧ ts = (chars t).length ∧ u ≤ m.length ∧
      CacheOk hc h (chars (.head h m t ts u))
  | .endA h m t ts u => WF hc t ∧ ts = (chars t).length ∧ u ≤ m.length ∧
      CacheOk hc h (chars (.endA h m t ts u))
  | .sum h x y xs ys => WF hc x ∧ WF hc y ∧ xs = (chars x).length ∧ ys = (chars y).length ∧
      CacheOk hc h (chars (.sum h x y xs ys))
  | .erased h t ts p s => WF hc t ∧ ts = (chars t).length ∧ p + s ≤ (chars t).length ∧
      CacheOk hc h (chars (.erased h t ts p s))
  | .inserted h t i ts p s => WF hc t ∧ WF hc i ∧ ts = (chars t).length ∧
      s = (chars i).length ∧ p ≤ (chars t).length ∧
      CacheOk hc h (chars (.inserted h t i ts p s))
  | .same h s v => CacheOk hc h (List.replicate s v)

/-- The part of `n` characters from position `p` of a sequence. -/
def part (l : List A) (p n : Nat) : List A := (l.drop p).take n

/-- No insertion node anywhere in the tree. -/
def NoInserted : Node A → Prop
  | .inserted _ _ _ _ _ _ => False
  | .substr _ t _ _ => NoInserted t
  | .head _ _ t _ _ => NoInserted t
  | .endA _ _ t _ _ => NoInserted t
  | .sum _ x y _ _ => NoInserted x ∧ NoInserted y
  | .erased _ t _ _ _ => NoInserted t
  | _ => True

/-- A range read through this tree never starts inside inserted characters: there is no insertion
node below a node that cuts its child (a substring, an erasure, an insertion).  The tree itself
and the sides of concatenations may be insertion nodes. -/
def InsertsOnTop : Node A → Prop
  | .inserted _ t i _ _ _ => NoInserted t ∧ InsertsOnTop i
  | .substr _ t _ _ => NoInserted t
  | .head _ _ t _ _ => InsertsOnTop t
  | .endA _ _ t _ _ => InsertsOnTop t
  | .sum _ x y _ _ => InsertsOnTop x ∧ InsertsOnTop y
  | .erased _ t _ _ _ => NoInserted t
  | _ => True

/-- Reading the `n` characters from `p` on never asks an insertion node for a range that starts
behind the insertion point and not behind the inserted characters. -/
def RangeClear : Node A → Nat → Nat → Prop
  | .substr _ t b _, p, n => RangeClear t (p + b) n
  | .head _ _ t _ u, p, n =>
    (p < u → u < p + n → RangeClear t 0 (n - (u - p))) ∧ (u ≤ p → RangeClear t (p - u) n)
  | .endA _ _ t ts _, p, n => p ≤ ts → RangeClear t p (min n (ts - p))
  | .sum _ x y xs _, p, n =>
    (p < xs → RangeClear x p (min n (xs - p))) ∧
    (p < xs → xs < p + n → RangeClear y 0 (n - (xs - p))) ∧ (xs ≤ p → RangeClear y (p - xs) n)
  | .erased _ t _ ep s, p, n =>
    (p < ep → RangeClear t p (min n (ep - p))) ∧
    (p < ep → ep ≤ p + n → RangeClear t (ep + s) (n - (ep - p))) ∧
    (ep ≤ p → RangeClear t (p + s) n)
  | .inserted _ t i _ ip s, p, n =>
    (n = 0 ∨ p ≤ ip ∨ ip + s < p) ∧
    (p < ip → RangeClear t p (min n (ip - p))) ∧
    (p ≤ ip → ip ≤ p + n → RangeClear i 0 (min (n - (ip - p)) s)) ∧
    (p ≤ ip → ip + s < p + n → RangeClear t ip (n - (ip - p) - s)) ∧
    (ip + s < p → RangeClear t (p - s) n)
  | _, _, _ => True

/-- No erasure node with characters before the erased range. -/
def NoInnerErase : Node A → Prop
  | .substr _ t _ _ => NoInnerErase t
  | .head _ _ t _ _ => NoInnerErase t
  | .endA _ _ t _ _ => NoInnerErase t
  | .sum _ x y _ _ => NoInnerErase x ∧ NoInnerErase y
  | .erased _ t _ p _ => NoInnerErase t ∧ p = 0
  | .inserted _ t i _ _ _ => NoInnerErase t ∧ NoInnerErase i
  | _ => True

/-- A node whose characters all lie in one array. -/
def Flat : Node A → Prop
  | .comn _ _ => True
  | .const _ _ => True
  | .same _ s _ => s ≤ 512
  | _ => False

/-- Reading the tree array by array from position 0 is safe: erasure nodes with characters before
the erased range sit directly on flat nodes, and none is below a node that cuts its child. -/
def Sequential : Node A → Prop
  | .substr _ t _ _ => NoInnerErase t
  | .head _ _ t _ _ => Sequential t
  | .endA _ _ t _ _ => Sequential t
  | .sum _ x y _ _ => Sequential x ∧ Sequential y
  | .erased _ t _ p _ => (NoInnerErase t ∧ p = 0) ∨ Flat t
  | .inserted _ t i _ _ _ => NoInnerErase t ∧ Sequential i
  | _ => True

/-- Position `i` does not lie inside the characters before an erased range. -/
def StartOk : Node A → Nat → Prop
  | .head _ _ t _ u, i => u ≤ i → StartOk t (i - u)
  | .endA _ _ t ts _, i => i < ts → StartOk t i
  | .sum _ x y xs _, i => (i < xs → StartOk x i) ∧ (xs ≤ i → StartOk y (i - xs))
  | .erased _ _ _ p _, i => i = 0 ∨ p ≤ i
  | .inserted _ _ x _ p s, i => p ≤ i → i < p + s → StartOk x (i - p)
  | _, _ => True

end ELC.Str.Spec
