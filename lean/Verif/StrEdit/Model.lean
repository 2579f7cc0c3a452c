import Verif.Str.Model
/-
Strings: edits of string nodes.  Models the editing functions of F/string/string_data_t/*.hpp; file
names below without a directory are in that directory.

The simplifications of Verif/Str/Model.lean hold here too.  An edit gives the node the string points
to afterwards.  It has no result (`none`) when it reads or writes outside an array, copies between
overlapping ranges with `memcpy`, uses a node after it was freed, or changes in place a node that
another string can still reach.  `gold` is `get_next_gold_size_to_resize_for_array`
(F/base_defs/math.hpp:585-590), of which only `n ≤ gold n` is used.
-/
namespace ELC.StrEdit
open Hash Str

section
variable {A : Type} [Inhabited A]

/-! ### Growing buffers -/

/-- Putting characters behind the used part of a buffer: end_apply_string_data_t.hpp:202-208. -/
def appendBuf (gold : Nat → Nat) (m : List A) (ts u : Nat) (str : List A) : Option (List A) :=
  if m.length - u ≥ str.length then overwrite m u str
  else partUsedInsert m u str (gold (u + ts + str.length)) u

/-- Putting characters before the used part of a buffer: head_apply_string_data_t.hpp:192-199. -/
def prependBuf (gold : Nat → Nat) (m : List A) (ts u : Nat) (str : List A) : Option (List A) :=
  let pos := m.length - u
  if pos ≥ str.length then overwrite m (m.length - u - str.length) str
  else partUsedInsertForward m pos str (gold (u + ts + str.length)) u

/-- `self_changed` of an end node, with `marge_same_value_type`: end_apply_string_data_t.hpp:89-110.
The node takes over the buffer of its child while the child is an end node of its own. The inner
call of `apply_str_to_end` (:93) merges the rest of the chain, so that the recursion is on the
child. -/
def endChanged (gold : Nat → Nat) : List A → Node A → Nat → Nat → Option (Node A)
  | m, .endA h m' t' ts' u', ts, u =>
    if h.uniq then
      (slice m 0 u).bind fun str =>
      (appendBuf gold m' ts' u' str).bind fun m'' => endChanged gold m'' t' ts' (u' + u)
    else some (.endA changed m (.endA h m' t' ts' u') ts u)
  | m, t, ts, u => some (.endA changed m t ts u)

/-- `self_changed` of a head node: head_apply_string_data_t.hpp:74-95. -/
def headChanged (gold : Nat → Nat) : List A → Node A → Nat → Nat → Option (Node A)
  | m, .head h m' t' ts' u', ts, u =>
    if h.uniq then
      (slice m (m.length - u) u).bind fun str =>
      (prependBuf gold m' ts' u' str).bind fun m'' => headChanged gold m'' t' ts' (u' + u)
    else some (.head changed m (.head h m' t' ts' u') ts u)
  | m, t, ts, u => some (.head changed m t ts u)

/-! ### Adding at the ends -/

/-- `base_t::apply_str_to_end(view)` end_apply_string_data_t.hpp:346-351. -/
def baseEndV (gold : Nat → Nat) (n : Node A) (str : List A) : Option (Node A) :=
  if str.length ≠ 0 then mkEnd gold n str else some n

/-- `base_t::apply_str_to_begin(view)` head_apply_string_data_t.hpp:357-362. -/
def baseBeginV (gold : Nat → Nat) (n : Node A) (str : List A) : Option (Node A) :=
  if str.length ≠ 0 then mkHead gold n str else some n

/-- `apply_str_to_end(view)`: null_string_data_t.hpp:63, substr_string_data_t.hpp:111-120,
head_apply_string_data_t.hpp:214-223, end_apply_string_data_t.hpp:200-215,
sum_string_data_t.hpp:142-151, erased_string_data_t.hpp:152-161, inserted_string_data_t.hpp:210-225;
the others inherit end_apply_string_data_t.hpp:346-351. -/
def endV (gold : Nat → Nat) : Node A → List A → Option (Node A)
  | .null, str => some (.comn fresh str)
  | .substr h t b s, str =>
    if h.uniq ∧ b + s = t.size then
      (endV gold t str).map fun t => .substr changed t b (s + str.length)
    else baseEndV gold (.substr h t b s) str
  | .head h m t ts u, str =>
    if h.uniq then (endV gold t str).bind fun t => headChanged gold m t (ts + str.length) u
    else baseEndV gold (.head h m t ts u) str
  | .endA h m t ts u, str =>
    if h.uniq then
      (appendBuf gold m ts u str).bind fun m => endChanged gold m t ts (u + str.length)
    else baseEndV gold (.endA h m t ts u) str
  | .sum h x y xs ys, str =>
    if h.uniq then (endV gold y str).map fun y => .sum changed x y xs (ys + str.length)
    else baseEndV gold (.sum h x y xs ys) str
  | .erased h t ts p sz, str =>
    if h.uniq then (endV gold t str).map fun t => .erased changed t (ts + str.length) p sz
    else baseEndV gold (.erased h t ts p sz) str
  | .inserted h t i ts p sz, str =>
    if h.uniq then
      if p = ts then (endV gold i str).map fun i => .inserted changed t i ts p (sz + str.length)
      else (endV gold t str).map fun t => .inserted changed t i (ts + str.length) p sz
    else baseEndV gold (.inserted h t i ts p sz) str
  | n, str => baseEndV gold n str

/-- `apply_str_to_begin(view)`: null_string_data_t.hpp:61, substr_string_data_t.hpp:91-100,
head_apply_string_data_t.hpp:190-206, end_apply_string_data_t.hpp:220-229,
sum_string_data_t.hpp:122-131, erased_string_data_t.hpp:128-139, inserted_string_data_t.hpp:174-191;
the others inherit head_apply_string_data_t.hpp:357-362. -/
def beginV (gold : Nat → Nat) : Node A → List A → Option (Node A)
  | .null, str => some (.comn fresh str)
  | .substr h t b s, str =>
    if h.uniq ∧ b = 0 then
      (beginV gold t str).map fun t => .substr changed t b (s + str.length)
    else baseBeginV gold (.substr h t b s) str
  | .head h m t ts u, str =>
    if h.uniq then
      (prependBuf gold m ts u str).bind fun m => headChanged gold m t ts (u + str.length)
    else baseBeginV gold (.head h m t ts u) str
  | .endA h m t ts u, str =>
    if h.uniq then (beginV gold t str).bind fun t => endChanged gold m t (ts + str.length) u
    else baseBeginV gold (.endA h m t ts u) str
  | .sum h x y xs ys, str =>
    if h.uniq then (beginV gold x str).map fun x => .sum changed x y (xs + str.length) ys
    else baseBeginV gold (.sum h x y xs ys) str
  | .erased h t ts p sz, str =>
    if h.uniq then
      (beginV gold t str).map fun t => .erased changed t (ts + str.length) (p + str.length) sz
    else baseBeginV gold (.erased h t ts p sz) str
  | .inserted h t i ts p sz, str =>
    if h.uniq then
      if p = 0 then (beginV gold i str).map fun i => .inserted changed t i ts p (sz + str.length)
      else (beginV gold t str).map fun t =>
        .inserted changed t i (ts + str.length) (p + str.length) sz
    else baseBeginV gold (.inserted h t i ts p sz) str
  | n, str => baseBeginV gold n str

/-- `apply_str_to_end(ptr)`: null_string_data_t.hpp:64, substr_string_data_t.hpp:121-130,
head_apply_string_data_t.hpp:224-233, end_apply_string_data_t.hpp:216-219 and 305-307,
sum_string_data_t.hpp:152-161, erased_string_data_t.hpp:162-171, inserted_string_data_t.hpp:226-241;
the others inherit sum_string_data_t.hpp:277-280. An end node gives up the unused rest of its
buffer even when it is shared, which changes no characters. -/
def endP (gold : Nat → Nat) : Node A → Node A → Option (Node A)
  | .null, str => some str
  | .substr h t b s, str =>
    if h.uniq ∧ b + s = t.size then
      (endP gold t str).map fun t => .substr changed t b (s + str.size)
    else some (mkSum (.substr h t b s) str)
  | .head h m t ts u, str =>
    if h.uniq then (endP gold t str).bind fun t => headChanged gold m t (ts + str.size) u
    else some (mkSum (.head h m t ts u) str)
  | .endA h m t ts u, str => some (mkSum (.endA h (realloc m u) t ts u) str)
  | .sum h x y xs ys, str =>
    if h.uniq then (endP gold y str).map fun y => .sum changed x y xs (ys + str.size)
    else some (mkSum (.sum h x y xs ys) str)
  | .erased h t ts p sz, str =>
    if h.uniq then (endP gold t str).map fun t => .erased changed t (ts + str.size) p sz
    else some (mkSum (.erased h t ts p sz) str)
  | .inserted h t i ts p sz, str =>
    if h.uniq then
      if p = ts then (endP gold i str).map fun i => .inserted changed t i ts p (sz + str.size)
      else (endP gold t str).map fun t => .inserted changed t i (ts + str.size) p sz
    else some (mkSum (.inserted h t i ts p sz) str)
  | n, str => some (mkSum n str)

/-- `forward_resize` to a smaller size (F/base/memory/get/defs.hpp:261-285): the last `n` of the
array. -/
def forwardCut (m : List A) (n : Nat) : List A := m.drop (m.length - n)

/-- `apply_str_to_begin(ptr)`: null_string_data_t.hpp:62, substr_string_data_t.hpp:101-110,
head_apply_string_data_t.hpp:207-213, end_apply_string_data_t.hpp:230-239,
sum_string_data_t.hpp:132-141, erased_string_data_t.hpp:140-151, inserted_string_data_t.hpp:192-209;
the others inherit sum_string_data_t.hpp:281-284. -/
def beginP (gold : Nat → Nat) : Node A → Node A → Option (Node A)
  | .null, str => some str
  | .substr h t b s, str =>
    if h.uniq ∧ b = 0 then
      (beginP gold t str).map fun t => .substr changed t b (s + str.size)
    else some (mkSum str (.substr h t b s))
  | .head h m t ts u, str => some (mkSum str (.head h (forwardCut m u) t ts u))
  | .endA h m t ts u, str =>
    if h.uniq then (beginP gold t str).bind fun t => endChanged gold m t (ts + str.size) u
    else some (mkSum str (.endA h m t ts u))
  | .sum h x y xs ys, str =>
    if h.uniq then (beginP gold x str).map fun x => .sum changed x y (xs + str.size) ys
    else some (mkSum str (.sum h x y xs ys))
  | .erased h t ts p sz, str =>
    if h.uniq then
      (beginP gold t str).map fun t => .erased changed t (ts + str.size) (p + str.size) sz
    else some (mkSum str (.erased h t ts p sz))
  | .inserted h t i ts p sz, str =>
    if h.uniq then
      if p = 0 then (beginP gold i str).map fun i => .inserted changed t i ts p (sz + str.size)
      else (beginP gold t str).map fun t => .inserted changed t i (ts + str.size) (p + str.size) sz
    else some (mkSum str (.inserted h t i ts p sz))
  | n, str => some (mkSum str n)

/-- `pre_alloc_after_end` end_apply_string_data_t.hpp:352-358 and 81-87. -/
def preAllocEnd (n : Node A) (k : Nat) : Node A :=
  if k ≠ 0 then .endA fresh (blank k) n n.size 0 else n

/-- `pre_alloc_before_begin` head_apply_string_data_t.hpp:363-369 and 66-72. -/
def preAllocBegin (n : Node A) (k : Nat) : Node A :=
  if k ≠ 0 then .head fresh (blank k) n n.size 0 else n

/-! ### Insertion and erasure -/

/-- `do_insert(pos, ptr)`: null_string_data_t.hpp:67, the others inserted_string_data_t.hpp:381-384
and 59. -/
def insertP : Node A → Nat → Node A → Option (Node A)
  | .null, _, str => some str
  | n, pos, str => some (.inserted fresh n str n.size pos str.size)

/-- `base_t::do_insert(pos, view)` inserted_string_data_t.hpp:385-393. -/
def baseInsertV (gold : Nat → Nat) (n : Node A) (pos : Nat) (str : List A) : Option (Node A) :=
  if pos = 0 then beginV gold n str
  else if pos = n.size then endV gold n str
  else insertP n pos (.comn fresh str)

/-- Insertion into the buffer of an end node, at `pos` in the buffer:
end_apply_string_data_t.hpp:147-155. -/
def endInsertBuf (gold : Nat → Nat) (m : List A) (ts u pos : Nat) (str : List A) :
    Option (List A) :=
  if m.length - u ≥ str.length then
    (memcpy m (pos + str.length) pos (u - pos)).bind fun m => overwrite m pos str
  else partUsedInsert m pos str (gold (u + ts + str.length)) u

/-- Insertion into the buffer of a head node, at `pos` in its used part:
head_apply_string_data_t.hpp:127-138. -/
def headInsertBuf (gold : Nat → Nat) (m : List A) (ts u pos : Nat) (str : List A) :
    Option (List A) :=
  let posBase := m.length - u
  if posBase ≥ str.length then
    (memcpy m (posBase - str.length) posBase pos).bind fun m =>
    overwrite m (posBase - str.length + pos) str
  else partUsedInsertForward m (posBase + pos) str (gold (u + ts + str.length)) u

/-- `do_insert(pos, view)`: null_string_data_t.hpp:66, end_apply_string_data_t.hpp:135-163,
head_apply_string_data_t.hpp:120-149, inserted_string_data_t.hpp:108-127; the others inherit
inserted_string_data_t.hpp:385-393. -/
def insertV (gold : Nat → Nat) : Node A → Nat → List A → Option (Node A)
  | .null, _, str => some (.comn fresh str)
  | .endA h m t ts u, pos, str =>
    if pos = 0 then beginV gold (.endA h m t ts u) str
    else if pos = u + ts then endV gold (.endA h m t ts u) str
    else if h.uniq then
      if pos < ts then
        (insertV gold t (wsub pos u) str).bind fun t => endChanged gold m t t.size u
      else
        (endInsertBuf gold m ts u (pos - ts) str).bind fun m =>
        endChanged gold m t ts (u + str.length)
    else baseInsertV gold (.endA h m t ts u) pos str
  | .head h m t ts u, pos, str =>
    if pos = 0 then beginV gold (.head h m t ts u) str
    else if pos = u + ts then endV gold (.head h m t ts u) str
    else if h.uniq then
      if pos < u then
        (headInsertBuf gold m ts u pos str).bind fun m =>
        headChanged gold m t ts (u + str.length)
      else
        (insertV gold t (pos - u) str).bind fun t => headChanged gold m t t.size u
    else baseInsertV gold (.head h m t ts u) pos str
  | .inserted h t i ts p sz, pos, str =>
    if h.uniq then
      if pos ≥ p ∧ pos ≤ p + sz then
        (insertV gold i (pos - p) str).map fun i => .inserted changed t i ts p (sz + str.length)
      else if pos < p then
        (insertV gold t pos str).map fun t =>
          .inserted changed t i (ts + str.length) (p + str.length) sz
      else
        (insertV gold t (pos - sz) str).map fun t =>
          .inserted changed t i (ts + str.length) p sz
    else baseInsertV gold (.inserted h t i ts p sz) pos str
  | n, pos, str => baseInsertV gold n pos str

/-- `base_t::do_erase` erased_string_data_t.hpp:272-278. -/
def baseErase (n : Node A) (pos size : Nat) : Node A :=
  if size = n.size then .null else mkErased n pos size

/-- `do_erase`: null_string_data_t.hpp:68, erased_string_data_t.hpp:99-109,
inserted_string_data_t.hpp:128-151; the others inherit erased_string_data_t.hpp:272-278. -/
def erase : Node A → Nat → Nat → Node A
  | .null, _, _ => .null
  | .erased h t ts p sz, pos, size =>
    if h.uniq ∧ pos ≤ p ∧ pos + size ≥ p + sz then .erased changed t ts pos (sz + size)
    else baseErase (.erased h t ts p sz) pos size
  | .inserted h t i ts p sz, pos, size =>
    if h.uniq then
      if pos ≥ p ∧ pos + size ≤ p + sz then
        .inserted changed t (erase i (pos - p) size) ts p (sz - size)
      else if pos + size < p then .inserted changed (erase t pos size) i (ts - size) (p - size) sz
      else if pos > p + sz then .inserted changed (erase t (pos - sz) size) i (ts - size) p sz
      else baseErase (.inserted h t i ts p sz) pos size
    else baseErase (.inserted h t i ts p sz) pos size
  | n, pos, size => baseErase n pos size

/-! ### Removing at the ends -/

/-- `base_t::do_remove_front` base_string_data_t.hpp:94-99. -/
def baseRemoveFront (n : Node A) (k : Nat) : Option (Node A) :=
  if k = 0 then some n else getSubstr n k (n.size - k)

/-- `base_t::do_remove_back` base_string_data_t.hpp:88-93. -/
def baseRemoveBack (n : Node A) (k : Nat) : Option (Node A) :=
  if k = 0 then some n else getSubstr n 0 (n.size - k)

/-- `null_equivalent_check` of a substring: substr_string_data_t.hpp:57-60. -/
def substrChecked (t : Node A) (b s : Nat) : Node A :=
  if s = 0 then .null else .substr changed t b s

/-- `do_remove_front`: null_string_data_t.hpp:74, substr_string_data_t.hpp:153-169,
head_apply_string_data_t.hpp:234-244, end_apply_string_data_t.hpp:240-253,
sum_string_data_t.hpp:162-175, erased_string_data_t.hpp:172-184, inserted_string_data_t.hpp:242-261,
same_value_compress_string_data_t.hpp:110-118; the others inherit base_string_data_t.hpp:94-99.
`own` tells whether every node above this one is unique, so that no other string reaches it
through them; a unique node that is reached by another string must not be changed, unless nothing
is to be removed. -/
def removeFront (gold : Nat → Nat) : Bool → Node A → Nat → Option (Node A)
  | _, .null, _ => some .null
  | own, .substr h t b s, k =>
    if h.uniq then
      if own ∨ k = 0 then
        if b = 0 then (removeFront gold true t k).map fun t => substrChecked t b (s - k)
        else some (substrChecked t (b + k) (s - k))
      else none
    else baseRemoveFront (.substr h t b s) k
  | own, .head h m t ts u, k =>
    if k ≥ u then removeFront gold (own && h.uniq) t (k - u)
    else if h.uniq then if own ∨ k = 0 then headChanged gold m t ts (u - k) else none
    else baseRemoveFront (.head h m t ts u) k
  | own, .endA h m t ts u, k =>
    if h.uniq ∧ k < ts then
      if own ∨ k = 0 then (removeFront gold true t k).bind fun t => endChanged gold m t (ts - k) u
      else none
    else baseRemoveFront (.endA h m t ts u) k
  | own, .sum h x y xs ys, k =>
    if xs = k then some y
    else if xs < k then removeFront gold (own && h.uniq) y (k - xs)
    else if h.uniq then
      if own ∨ k = 0 then (removeFront gold true x k).map fun x => .sum changed x y (xs - k) ys else none
    else baseRemoveFront (.sum h x y xs ys) k
  | own, .erased h t ts p sz, k =>
    if k ≥ p then removeFront gold (own && h.uniq) t (k + sz)
    else if h.uniq then
      if own ∨ k = 0 then (removeFront gold true t k).map fun t => .erased changed t (ts - k) (p - k) sz
      else none
    else baseRemoveFront (.erased h t ts p sz) k
  | own, .inserted h t i ts p sz, k =>
    if k ≥ p + sz then removeFront gold (own && h.uniq) t (k - sz)
    else if h.uniq ∧ p > k then
      if own ∨ k = 0 then
        (removeFront gold true t k).map fun t => .inserted changed t i (ts - k) (p - k) sz
      else none
    else if h.uniq ∧ p = 0 ∧ sz ≥ k then
      if own ∨ k = 0 then (removeFront gold true i k).map fun i => .inserted changed t i ts p (sz - k)
      else none
    else baseRemoveFront (.inserted h t i ts p sz) k
  | own, .same h s v, k =>
    if h.uniq then if own ∨ k = 0 then some (.same changed (s - k) v) else none
    else some (clone h s v (s - k))
  | _, n, k => baseRemoveFront n k

/-- `do_remove_back`: null_string_data_t.hpp:75, substr_string_data_t.hpp:170-181,
head_apply_string_data_t.hpp:245-260, end_apply_string_data_t.hpp:254-264,
sum_string_data_t.hpp:176-189, erased_string_data_t.hpp:185-196, inserted_string_data_t.hpp:262-280,
same_value_compress_string_data_t.hpp:119-127; the others inherit base_string_data_t.hpp:88-93. -/
def removeBack (gold : Nat → Nat) : Bool → Node A → Nat → Option (Node A)
  | _, .null, _ => some .null
  | own, .substr h t b s, k =>
    if h.uniq then
      if own ∨ k = 0 then
        if b + s = t.size then (removeBack gold true t k).map fun t => substrChecked t b (s - k)
        else some (substrChecked t b (s - k))
      else none
    else baseRemoveBack (.substr h t b s) k
  | own, .head h m t ts u, k =>
    if h.uniq ∧ k < ts then
      if own ∨ k = 0 then (removeBack gold true t k).bind fun t => headChanged gold m t (ts - k) u
      else none
    else baseRemoveBack (.head h m t ts u) k
  | own, .endA h m t ts u, k =>
    if k ≥ u then removeBack gold (own && h.uniq) t (k - u)
    else if h.uniq then if own ∨ k = 0 then endChanged gold m t ts (u - k) else none
    else baseRemoveBack (.endA h m t ts u) k
  | own, .sum h x y xs ys, k =>
    if ys = k then some x
    else if ys < k then removeBack gold (own && h.uniq) x (k - ys)
    else if h.uniq then
      if own ∨ k = 0 then (removeBack gold true y k).map fun y => .sum changed x y xs (ys - k) else none
    else baseRemoveBack (.sum h x y xs ys) k
  | own, .erased h t ts p sz, k =>
    if k ≥ ts - p - sz then removeBack gold (own && h.uniq) t (k + sz)
    else if h.uniq then
      if own ∨ k = 0 then (removeBack gold true t k).map fun t => .erased changed t (ts - k) p sz
      else none
    else baseRemoveBack (.erased h t ts p sz) k
  | own, .inserted h t i ts p sz, k =>
    if k ≥ ts - p then removeBack gold (own && h.uniq) t (wsub k p)
    else if h.uniq ∧ p + sz ≤ ts - k then
      if own ∨ k = 0 then (removeBack gold true t k).map fun t => .inserted changed t i (ts - k) p sz
      else none
    else if h.uniq ∧ p = ts ∧ sz ≥ k then
      if own ∨ k = 0 then (removeFront gold true i k).map fun i => .inserted changed t i ts p (sz - k)
      else none
    else baseRemoveBack (.inserted h t i ts p sz) k
  | own, .same h s v, k =>
    if h.uniq then if own ∨ k = 0 then some (.same changed (s - k) v) else none
    else some (clone h s v (s - k))
  | _, n, k => baseRemoveBack n k

/-! ### Popping at the ends

The result is the popped string and the node the string points to afterwards. -/

/-- `base_t::do_pop_front` base_string_data_t.hpp:108-115. -/
def basePopFront (n : Node A) (k : Nat) : Option (Node A × Node A) :=
  if k = 0 then some (.null, n)
  else (getSubstr n 0 k).bind fun x => (getSubstr n k (n.size - k)).map fun y => (x, y)

/-- `base_t::do_pop_back` base_string_data_t.hpp:100-107. -/
def basePopBack (n : Node A) (k : Nat) : Option (Node A × Node A) :=
  if k = 0 then some (.null, n)
  else (getSubstr n 0 (n.size - k)).bind fun x =>
    (getSubstr n (n.size - k) k).map fun y => (y, x)

/-- Popping from a run: same_value_compress_string_data_t.hpp:128-151. -/
def samePop (h : Hd) (s : Nat) (v : A) (k : Nat) : Node A × Node A :=
  if h.uniq then (clone changed (s - k) v k, .same changed (s - k) v)
  else (clone h s v k, clone h s v (s - k))

/-- `null_equivalent_check` of an erasure: erased_string_data_t.hpp:58-61. -/
def erasedChecked (t : Node A) (ts p sz : Nat) : Node A :=
  if ts = sz ∨ ts = 0 then .null else .erased changed t ts p sz

/-- Popping from the buffer of a head node: head_apply_string_data_t.hpp:263-265, where the buffer
is read after `self_changed` may have exchanged it. -/
def headPopped (k : Nat) : Node A → Option (Node A × Node A)
  | .head h m t ts u =>
    if u + k ≤ m.length then
      (slice m (m.length - u - k) k).map fun x => (.comn fresh x, .head h m t ts u)
    else none
  | _ => none

/-- Popping from the buffer of an end node: end_apply_string_data_t.hpp:277-279. -/
def endPopped (k : Nat) : Node A → Option (Node A × Node A)
  | .endA h m t ts u => (slice m u k).map fun x => (.comn fresh x, .endA h m t ts u)
  | _ => none

/-- `do_pop_front`: null_string_data_t.hpp:77, substr_string_data_t.hpp:131-141,
head_apply_string_data_t.hpp:261-269, end_apply_string_data_t.hpp:265-274,
sum_string_data_t.hpp:190-205, erased_string_data_t.hpp:197-208, inserted_string_data_t.hpp:281-298,
same_value_compress_string_data_t.hpp:128-139; the others inherit base_string_data_t.hpp:108-115. -/
def popFront (gold : Nat → Nat) : Node A → Nat → Option (Node A × Node A)
  | .null, _ => some (.null, .null)
  | .substr h t b s, k =>
    if h.uniq ∧ b = 0 then (popFront gold t k).map fun r => (r.1, substrChecked r.2 b (s - k))
    else basePopFront (.substr h t b s) k
  | .head h m t ts u, k =>
    if h.uniq ∧ u ≥ k then (headChanged gold m t ts (u - k)).bind (headPopped k)
    else basePopFront (.head h m t ts u) k
  | .endA h m t ts u, k =>
    if h.uniq ∧ k < ts then
      (popFront gold t k).bind fun r => (endChanged gold m r.2 (ts - k) u).map fun n => (r.1, n)
    else basePopFront (.endA h m t ts u) k
  | .sum h x y xs ys, k =>
    if h.uniq ∧ xs ≥ k then
      if xs = k then some (x, y)
      else (popFront gold x k).map fun r => (r.1, .sum changed r.2 y (xs - k) ys)
    else basePopFront (.sum h x y xs ys) k
  | .erased h t ts p sz, k =>
    if h.uniq ∧ p > k then
      (popFront gold t k).map fun r => (r.1, erasedChecked r.2 (ts - k) (p - k) sz)
    else basePopFront (.erased h t ts p sz) k
  | .inserted h t i ts p sz, k =>
    if h.uniq ∧ p > k then
      (popFront gold t k).map fun r => (r.1, .inserted changed r.2 i (ts - k) (p - k) sz)
    else if h.uniq ∧ p = 0 ∧ sz ≥ k then
      (popFront gold i k).map fun r => (r.1, .inserted changed t r.2 ts p (sz - k))
    else basePopFront (.inserted h t i ts p sz) k
  | .same h s v, k => some (samePop h s v k)
  | n, k => basePopFront n k

/-- `do_pop_back`: null_string_data_t.hpp:76, substr_string_data_t.hpp:142-152,
head_apply_string_data_t.hpp:270-279, end_apply_string_data_t.hpp:275-283,
sum_string_data_t.hpp:206-221, erased_string_data_t.hpp:209-219, inserted_string_data_t.hpp:299-315,
same_value_compress_string_data_t.hpp:140-151; the others inherit base_string_data_t.hpp:100-107. -/
def popBack (gold : Nat → Nat) : Node A → Nat → Option (Node A × Node A)
  | .null, _ => some (.null, .null)
  | .substr h t b s, k =>
    if h.uniq ∧ b + s = t.size then
      (popBack gold t k).map fun r => (r.1, substrChecked r.2 b (s - k))
    else basePopBack (.substr h t b s) k
  | .head h m t ts u, k =>
    if h.uniq then
      (popBack gold t k).bind fun r => (headChanged gold m r.2 (wsub ts k) u).map fun n => (r.1, n)
    else basePopBack (.head h m t ts u) k
  | .endA h m t ts u, k =>
    if h.uniq ∧ u ≥ k then (endChanged gold m t ts (u - k)).bind (endPopped k)
    else basePopBack (.endA h m t ts u) k
  | .sum h x y xs ys, k =>
    if h.uniq ∧ ys ≥ k then
      (if xs = k then some (y, .null) else popBack gold y k).map fun r =>
        (r.1, if ys - k = 0 then x else .sum changed x r.2 xs (ys - k))
    else basePopBack (.sum h x y xs ys) k
  | .erased h t ts p sz, k =>
    if h.uniq ∧ p + sz ≤ wsub ts k then
      (popBack gold t k).map fun r => (r.1, erasedChecked r.2 (wsub ts k) p sz)
    else basePopBack (.erased h t ts p sz) k
  | .inserted h t i ts p sz, k =>
    if h.uniq ∧ p + sz ≤ wsub ts k then
      (popBack gold t k).map fun r => (r.1, .inserted changed r.2 i (wsub ts k) p sz)
    else if h.uniq ∧ p = ts ∧ sz ≥ k then
      (popFront gold i k).map fun r => (r.1, .inserted changed t r.2 ts p (sz - k))
    else basePopBack (.inserted h t i ts p sz) k
  | .same h s v, k => some (samePop h s v k)
  | n, k => basePopBack n k

/-! ### Assignment to one index -/

/-- Writing one element of an array. -/
def setAt (m : List A) (i : Nat) (a : A) : Option (List A) :=
  if i < m.length then some (m.set i a) else none

/-- `base_t::arec_set` comn_string_data_t.hpp:169-172 with `get_unique_c_str` (163-168): a flat copy
takes the place of the node. -/
def baseSet (n : Node A) (i : Nat) (a : A) : Option (Node A) :=
  (copyPart n 0 n.size).bind fun m => (setAt m i a).map (.comn fresh)

variable [DecidableEq A]

/-- Whether `arec_set` assigns to the pointer it is given, so that the node is replaced:
comn_string_data_t.hpp:117-124, constexpr_string_data_t.hpp:103, substr_string_data_t.hpp:83-90,
head_apply_string_data_t.hpp:177-189, end_apply_string_data_t.hpp:188-198,
sum_string_data_t.hpp:111-121, erased_string_data_t.hpp:117-127,
inserted_string_data_t.hpp:161-173, same_value_compress_string_data_t.hpp:81-109. -/
def replaces : Node A → A → Bool
  | .null, _ => false
  | .const _ _, _ => true
  | .same _ s v, a => a ≠ v ∧ s ≠ 1
  | n, _ => !n.uniq

/-- Assignment inside a long run: same_value_compress_string_data_t.hpp:86-105; 512 is
`max_static_data_size` (:56). -/
def sameSetLong (h : Hd) (s : Nat) (v : A) (i : Nat) (a : A) : Option (Node A) :=
  (setAt (List.replicate 512 v) (min i 256) a).map fun m =>
    let tmp : Node A := .comn changed m
    let tmp := if i > 256 then mkSum (clone h s v (i - 256)) tmp else tmp
    let lastSize := wsub s tmp.size
    if lastSize ≠ 0 then mkSum tmp (clone h s v lastSize) else tmp

/-- `arec_set`: null_string_data_t.hpp:73, comn_string_data_t.hpp:117-124,
constexpr_string_data_t.hpp:103, substr_string_data_t.hpp:83-90,
head_apply_string_data_t.hpp:177-189, end_apply_string_data_t.hpp:188-198,
sum_string_data_t.hpp:111-121, erased_string_data_t.hpp:117-127,
inserted_string_data_t.hpp:161-173, same_value_compress_string_data_t.hpp:81-109. An insertion
node hands its own pointer to its child: a child that assigns to it frees the insertion node,
which is then used (:169). A run of one character is changed without asking whether it is shared,
and keeps its cached hash (:84). -/
def arecSet (gold : Nat → Nat) : Node A → Nat → A → Option (Node A)
  | .null, _, _ => some .null
  | .comn h m, i, a =>
    if h.uniq then (setAt m i a).map (.comn changed) else baseSet (.comn h m) i a
  | .const h m, i, a => baseSet (.const h m) i a
  | .substr h t b s, i, a =>
    if h.uniq then (arecSet gold t (i + b) a).map fun t => .substr changed t b s
    else baseSet (.substr h t b s) i a
  | .head h m t ts u, i, a =>
    if h.uniq then
      if i < u then (setAt m (m.length - u + i) a).bind fun m => headChanged gold m t ts u
      else (arecSet gold t (i - u) a).bind fun t => headChanged gold m t ts u
    else baseSet (.head h m t ts u) i a
  | .endA h m t ts u, i, a =>
    if h.uniq then
      if i < ts then (arecSet gold t i a).bind fun t => endChanged gold m t ts u
      else (setAt m (i - ts) a).bind fun m => endChanged gold m t ts u
    else baseSet (.endA h m t ts u) i a
  | .sum h x y xs ys, i, a =>
    if h.uniq then
      if i < xs then (arecSet gold x i a).map fun x => .sum changed x y xs ys
      else (arecSet gold y (i - xs) a).map fun y => .sum changed x y xs ys
    else baseSet (.sum h x y xs ys) i a
  | .erased h t ts p sz, i, a =>
    if h.uniq then
      if i ≥ p then (arecSet gold t (i + sz) a).map fun t => .erased changed t ts p sz
      else (arecSet gold t i a).map fun t => .erased changed t ts p sz
    else baseSet (.erased h t ts p sz) i a
  | .inserted h t x ts p sz, i, a =>
    if h.uniq then
      if i ≥ p ∧ i < p + sz then
        if replaces x a then none
        else (arecSet gold x (i - p) a).map fun x => .inserted changed t x ts p sz
      else if replaces t a then none
      else if i ≥ p + sz then
        (arecSet gold t (i - sz) a).map fun t => .inserted changed t x ts p sz
      else (arecSet gold t i a).map fun t => .inserted changed t x ts p sz
    else baseSet (.inserted h t x ts p sz) i a
  | .same h s v, i, a =>
    if a = v then some (.same h s v)
    else if s = 1 then if h.uniq then some (.same h s a) else none
    else if s > 512 then sameSetLong h s v i a
    else baseSet (.same h s v) i a

/-! ### Histories -/

/-- The edits of a string: F/string/defs.hpp:462-470 (substring), 555-631 (push), 633-639 (remove and
pop), 850-852 (erase), 853-866 (insert) and 325 (assignment), each on the node the string points
to. -/
inductive Edit (A : Type) where
  | pushBack (str : List A)
  | pushFront (str : List A)
  | pushBackString (str : Node A)
  | pushFrontString (str : Node A)
  | insert (pos : Nat) (str : List A)
  | insertString (pos : Nat) (str : Node A)
  | erase (pos k : Nat)
  | removeFront (k : Nat)
  | removeBack (k : Nat)
  | popFront (k : Nat)
  | popBack (k : Nat)
  | substring (b s : Nat)
  | assign (i : Nat) (a : A)

/-- Runs one edit. -/
def runEdit (gold : Nat → Nat) (n : Node A) : Edit A → Option (Node A)
  | .pushBack str => endV gold n str
  | .pushFront str => beginV gold n str
  | .pushBackString str => endP gold n str
  | .pushFrontString str => beginP gold n str
  | .insert pos str => insertV gold n pos str
  | .insertString pos str => insertP n pos str
  | .erase pos k => some (StrEdit.erase n pos k)
  | .removeFront k => StrEdit.removeFront gold true n k
  | .removeBack k => StrEdit.removeBack gold true n k
  | .popFront k => (StrEdit.popFront gold n k).map (·.2)
  | .popBack k => (StrEdit.popBack gold n k).map (·.2)
  | .substring b s => getSubstr n b s
  | .assign i a => arecSet gold n i a

end
end ELC.StrEdit
