import Verif.Str.Spec
import Verif.StrEdit.Model
/-!
What the edits of a string mean for its characters, and for which trees the editing functions keep
to it.  Nothing here refers to the editing functions of the model.
-/
namespace ELC.StrEdit.Spec
open Hash Str Str.Spec
variable {A : Type}

/-! ### Edits of a sequence -/

/-- `str` put in at position `pos`. -/
def insertAt (l : List A) (pos : Nat) (str : List A) : List A := l.take pos ++ str ++ l.drop pos

/-- `k` characters taken out from position `pos` on. -/
def eraseAt (l : List A) (pos k : Nat) : List A := l.take pos ++ l.drop (pos + k)

/-! ### Trees on which an edit is right -/

/-- Inserting `len` characters at `pos` is right: no end node with characters of its own is asked to
insert before them, and no buffer with room for the new characters has to move more characters than
are inserted. -/
def InsertSafe : Node A → Nat → Nat → Prop
  | .endA h m t ts u, pos, len =>
    pos = 0 ∨ pos = u + ts ∨ h.uniq = false ∨
    (pos < ts ∧ u = 0 ∧ InsertSafe t pos len) ∨
    (ts ≤ pos ∧ (m.length < u + len ∨ u + ts ≤ pos + len))
  | .head h m t ts u, pos, len =>
    pos = 0 ∨ pos = u + ts ∨ h.uniq = false ∨
    (pos < u ∧ (m.length < u + len ∨ pos ≤ len)) ∨ (u ≤ pos ∧ InsertSafe t (pos - u) len)
  | .inserted h t i _ p s, pos, len =>
    h.uniq = true →
      (p ≤ pos → pos ≤ p + s → InsertSafe i (pos - p) len) ∧ (pos < p → InsertSafe t pos len) ∧
      (p + s < pos → InsertSafe t (pos - s) len)
  | _, _, _ => True

/-- Every unique node which is changed when `k` characters are removed at the front lies below
unique nodes only; `own` is whether the nodes above this tree are unique. -/
def FrontSafe : Bool → Node A → Nat → Prop
  | own, .substr h t b _, k =>
    h.uniq = true → (own = true ∨ k = 0) ∧ (b = 0 → FrontSafe true t k)
  | own, .head h _ t _ u, k =>
    (u ≤ k → FrontSafe (own && h.uniq) t (k - u)) ∧ (k < u → h.uniq = true → own = true ∨ k = 0)
  | own, .endA h _ t ts _, k =>
    h.uniq = true → k < ts → (own = true ∨ k = 0) ∧ FrontSafe true t k
  | own, .sum h x y xs _, k =>
    (xs < k → FrontSafe (own && h.uniq) y (k - xs)) ∧
    (k < xs → h.uniq = true → (own = true ∨ k = 0) ∧ FrontSafe true x k)
  | own, .erased h t _ p s, k =>
    (p ≤ k → FrontSafe (own && h.uniq) t (k + s)) ∧
    (k < p → h.uniq = true → (own = true ∨ k = 0) ∧ FrontSafe true t k)
  | own, .inserted h t i _ p s, k =>
    (p + s ≤ k → FrontSafe (own && h.uniq) t (k - s)) ∧
    (k < p + s → h.uniq = true → k < p → (own = true ∨ k = 0) ∧ FrontSafe true t k) ∧
    (k < p + s → h.uniq = true → p = 0 → (own = true ∨ k = 0) ∧ FrontSafe true i k)
  | own, .same h _ _, k => h.uniq = true → own = true ∨ k = 0
  | _, _, _ => True

/-- The same at the back; and no insertion node is asked to remove more characters than lie behind
its insertion point. -/
def BackSafe : Bool → Node A → Nat → Prop
  | own, .substr h t b s, k =>
    h.uniq = true → (own = true ∨ k = 0) ∧ (b + s = (chars t).length → BackSafe true t k)
  | own, .endA h _ t _ u, k =>
    (u ≤ k → BackSafe (own && h.uniq) t (k - u)) ∧ (k < u → h.uniq = true → own = true ∨ k = 0)
  | own, .head h _ t ts _, k =>
    h.uniq = true → k < ts → (own = true ∨ k = 0) ∧ BackSafe true t k
  | own, .sum h x y _ ys, k =>
    (ys < k → BackSafe (own && h.uniq) x (k - ys)) ∧
    (k < ys → h.uniq = true → (own = true ∨ k = 0) ∧ BackSafe true y k)
  | own, .erased h t ts p s, k =>
    (ts - p - s ≤ k → BackSafe (own && h.uniq) t (k + s)) ∧
    (k < ts - p - s → h.uniq = true → (own = true ∨ k = 0) ∧ BackSafe true t k)
  | own, .inserted h t _ ts p s, k =>
    k < ts - p ∧ (h.uniq = true → p + s ≤ ts - k → (own = true ∨ k = 0) ∧ BackSafe true t k)
  | own, .same h _ _, k => h.uniq = true → own = true ∨ k = 0
  | _, _, _ => True

/-- A head node, or an end node, with one owner. -/
def UniqueHead : Node A → Prop
  | .head h _ _ _ _ => h.uniq = true
  | _ => False
def UniqueEnd : Node A → Prop
  | .endA h _ _ _ _ => h.uniq = true
  | _ => False

/-- Popping `k` characters at the front never takes them from the buffer of a head node that is about
to take over the buffer of its child. -/
def PopFrontSafe : Node A → Nat → Prop
  | .substr h t b _, k => h.uniq = true → b = 0 → PopFrontSafe t k
  | .head h _ t _ u, k => h.uniq = true → k ≤ u → k = 0 ∨ ¬ UniqueHead t
  | .endA h _ t ts _, k => h.uniq = true → k < ts → PopFrontSafe t k
  | .sum h x _ xs _, k => h.uniq = true → k < xs → PopFrontSafe x k
  | .erased h t _ p _, k => h.uniq = true → k < p → PopFrontSafe t k
  | .inserted h t i _ p s, k =>
    h.uniq = true → (k < p → PopFrontSafe t k) ∧ (p = 0 → k ≤ s → PopFrontSafe i k)
  | _, _ => True

/-- The same at the back; no unique head node is asked for more characters than its child has, no
unique concatenation for as many as its first part has and its second has not, and no unique
insertion node for characters of the insertion or before it. -/
def PopBackSafe : Node A → Nat → Prop
  | .substr h t b s, k => h.uniq = true → b + s = (chars t).length → PopBackSafe t k
  | .head h _ t ts _, k => h.uniq = true → k ≤ ts ∧ PopBackSafe t k
  | .endA h _ t _ u, k => h.uniq = true → k ≤ u → k = 0 ∨ ¬ UniqueEnd t
  | .sum h _ y xs ys, k =>
    h.uniq = true → k ≤ ys → (xs = k → ys = k) ∧ (xs ≠ k → PopBackSafe y k)
  | .erased h t ts p s, k => h.uniq = true → p + s ≤ ts - k → PopBackSafe t k
  | .inserted h t _ ts p s, k =>
    h.uniq = true → k ≤ ts ∧ (p + s ≤ ts - k → PopBackSafe t k) ∧ (p = ts → s < k)
  | _, _ => True

/-- Assignment leaves the node in its place. -/
def Stays : Node A → A → Prop
  | .null, _ => True
  | .const _ _, _ => False
  | .same _ s v, a => a = v ∨ s = 1
  | n, _ => n.uniq = true

/-- Assigning to index `i` is right: shared nodes on the way can be copied flat, the child of an
insertion node stays in its place, a run of one character is not shared and has no cached hash, and
the index is not near the end of a run of more than 512 characters. -/
def SetSafe : Node A → Nat → A → Prop
  | .substr h t b s, i, a =>
    if h.uniq then SetSafe t (i + b) a else RangeClear (.substr h t b s) 0 s
  | .head h m t ts u, i, a =>
    if h.uniq then u ≤ i → SetSafe t (i - u) a else RangeClear (.head h m t ts u) 0 (u + ts)
  | .endA h m t ts u, i, a =>
    if h.uniq then i < ts → SetSafe t i a else RangeClear (.endA h m t ts u) 0 (u + ts)
  | .sum h x y xs ys, i, a =>
    if h.uniq then (i < xs → SetSafe x i a) ∧ (xs ≤ i → SetSafe y (i - xs) a)
    else RangeClear (.sum h x y xs ys) 0 (xs + ys)
  | .erased h t ts p s, i, a =>
    if h.uniq then (p ≤ i → SetSafe t (i + s) a) ∧ (i < p → SetSafe t i a)
    else RangeClear (.erased h t ts p s) 0 (ts - s)
  | .inserted h t x ts p s, i, a =>
    if h.uniq then
      (i < p → Stays t a ∧ SetSafe t i a) ∧
      (p ≤ i → i < p + s → Stays x a ∧ SetSafe x (i - p) a) ∧
      (p + s ≤ i → Stays t a ∧ SetSafe t (i - s) a)
    else RangeClear (.inserted h t x ts p s) 0 (ts + s)
  | .same h s v, i, a =>
    a = v ∨ (s = 1 ∧ h.uniq = true ∧ h.cache = none) ∨ (s ≠ 1 ∧ s ≤ 512) ∨ (512 < s ∧ i + 256 ≤ s)
  | _, _, _ => True

/-- No node of the tree has another owner. -/
def AllUnique : Node A → Prop
  | .null => True
  | .comn h _ => h.uniq = true
  | .const h _ => h.uniq = true
  | .substr h t _ _ => h.uniq = true ∧ AllUnique t
  | .head h _ t _ _ => h.uniq = true ∧ AllUnique t
  | .endA h _ t _ _ => h.uniq = true ∧ AllUnique t
  | .sum h x y _ _ => h.uniq = true ∧ AllUnique x ∧ AllUnique y
  | .erased h t _ _ _ => h.uniq = true ∧ AllUnique t
  | .inserted h t i _ _ _ => h.uniq = true ∧ AllUnique t ∧ AllUnique i
  | .same h _ _ => h.uniq = true

/-! ### Histories -/

/-- What an edit does to a plain sequence. -/
def onList (l : List A) : Edit A → List A
  | .pushBack str => l ++ str
  | .pushFront str => str ++ l
  | .pushBackString str => l ++ chars str
  | .pushFrontString str => chars str ++ l
  | .insert pos str => insertAt l pos str
  | .insertString pos str => insertAt l pos (chars str)
  | .erase pos k => eraseAt l pos k
  | .removeFront k => l.drop k
  | .removeBack k => l.take (l.length - k)
  | .popFront k => l.drop k
  | .popBack k => l.take (l.length - k)
  | .substring b s => (l.drop b).take s
  | .assign i a => l.set i a

/-- The arguments of an edit of a string of `len` characters are in range, and argument strings are
in order. -/
def InRange (hc : A → Word) (len : Nat) : Edit A → Prop
  | .pushBackString str => WF hc str
  | .pushFrontString str => WF hc str
  | .insert pos _ => pos ≤ len
  | .insertString pos str => WF hc str ∧ pos ≤ len
  | .erase pos k => pos + k ≤ len
  | .removeFront k => k ≤ len
  | .removeBack k => k ≤ len
  | .popFront k => k ≤ len
  | .popBack k => k ≤ len
  | .substring b s => b + s ≤ len
  | .assign i _ => i < len
  | _ => True

/-- The edit is right on this tree; no condition for pushes, insertion of a string, erasure and
substrings. -/
def Safe (n : Node A) : Edit A → Prop
  | .insert pos str => InsertSafe n pos str.length
  | .removeFront k => FrontSafe true n k
  | .removeBack k => BackSafe true n k
  | .popFront k => PopFrontSafe n k
  | .popBack k => PopBackSafe n k
  | .assign i a => SetSafe n i a
  | _ => True

end ELC.StrEdit.Spec
