import Verif.Hash.Props
/-
Strings: the lazily built string nodes.  Models F/string/string_data_t/*.hpp.

File names below without a directory are in F/string/string_data_t/.

A string is a tree of nodes.  Every node but the null node has a header: whether its reference
count is one (`is_unique`, base_string_data_t.hpp:68) and its cached hash (base_string_data_t.hpp:396-401).  Nodes with more owners
appear once under each owner; they are never changed in place, so the tree is faithful as long as
an edit changes unique nodes only.  An edit that changes a node which another string still
reaches has no result (`none`), like a read or write outside an array.

Simplifications, for the whole area:
* the character type is trivially copyable and trivially default constructible, so that
  `copy_assign[n]` is `memcpy` (F/base_defs/memory/lifetime/defs.hpp:608-611) and
  default construction writes nothing (:164-168); unspecified characters are `default`;
* `be_replace_as` (base_string_data_t.hpp:483-485) is transparent: a node replaced by another is the other;
* a flat node keeps its terminating zero implicitly (comn_string_data_t.hpp:74-77), and reading that zero is
  not modelled;
* the buffer a run lends out (same_value_compress_string_data_t.hpp:170-178) is implicit;
* reads that replace a node by an equal flat node (comn_string_data_t.hpp:155-162) and writes of hash caches
  (base_string_data_t.hpp:403-410) leave the characters as they are and are left out: the theorems hold for every
  tree and every set of right caches;
* flags of nodes that get one more owner inside an edit are not updated: within an edit they
  only decide whether two buffers are merged;
* an argument view never points into the string being edited.
-/
namespace ELC.Str
open Hash

/-- Header of a node: base_string_data_t.hpp:68 `is_unique` and base_string_data_t.hpp:396-401 the
hash cache. -/
structure Hd where
  uniq : Bool
  cache : Option Word
  deriving DecidableEq

/-- The header of a node just made by `get<…>`: one owner (base_string_data_t.hpp:68), no cache
(base_string_data_t.hpp:397). -/
def fresh : Hd := ⟨true, none⟩

/-- The header after `self_changed` on a unique node (base_string_data_t.hpp:428-430). -/
def changed : Hd := ⟨true, none⟩

/-- The node kinds and their members: null_string_data_t.hpp:32, comn_string_data_t.hpp:53,
constexpr_string_data_t.hpp:52-53, substr_string_data_t.hpp:53-55,
head_apply_string_data_t.hpp:53-56, end_apply_string_data_t.hpp:53-56, sum_string_data_t.hpp:53-56,
erased_string_data_t.hpp:53-56, inserted_string_data_t.hpp:53-57,
same_value_compress_string_data_t.hpp:53-55. -/
inductive Node (A : Type) where
  | null : Node A
  | comn : Hd → List A → Node A
  | const : Hd → List A → Node A
  /-- `_to`, `_sub_begin`, `_sub_size` -/
  | substr : Hd → Node A → Nat → Nat → Node A
  /-- `_m`, `_to`, `_to_size`, `_used_size`; the last `_used_size` of `_m` are in use -/
  | head : Hd → List A → Node A → Nat → Nat → Node A
  /-- `_m`, `_to`, `_to_size`, `_used_size`; the first `_used_size` of `_m` are in use -/
  | endA : Hd → List A → Node A → Nat → Nat → Node A
  /-- `_before`, `_after`, `_before_size`, `_after_size` -/
  | sum : Hd → Node A → Node A → Nat → Nat → Node A
  /-- `_to`, `_to_size`, `_erase_pos`, `_erase_size` -/
  | erased : Hd → Node A → Nat → Nat → Nat → Node A
  /-- `_to`, `_insert_data`, `_to_size`, `_insert_pos`, `_insert_size` -/
  | inserted : Hd → Node A → Node A → Nat → Nat → Nat → Node A
  /-- `_size`, `_value` -/
  | same : Hd → Nat → A → Node A
  deriving DecidableEq

/-- `size_t` subtraction of 64 bit words. -/
def wsub (a b : Nat) : Nat := if b ≤ a then a - b else a + 2 ^ 64 - b

section
variable {A : Type}

/-- base_string_data_t.hpp:68 `is_unique`; the null node never is (null_string_data_t.hpp:52). -/
def Node.uniq : Node A → Bool
  | .null => false
  | .comn h _ => h.uniq
  | .const h _ => h.uniq
  | .substr h _ _ _ => h.uniq
  | .head h _ _ _ _ => h.uniq
  | .endA h _ _ _ _ => h.uniq
  | .sum h _ _ _ _ => h.uniq
  | .erased h _ _ _ _ => h.uniq
  | .inserted h _ _ _ _ _ => h.uniq
  | .same h _ _ => h.uniq

/-- `get_size`: null_string_data_t.hpp:59, comn_string_data_t.hpp:112,
constexpr_string_data_t.hpp:96, substr_string_data_t.hpp:78, head_apply_string_data_t.hpp:119,
end_apply_string_data_t.hpp:134, sum_string_data_t.hpp:87, erased_string_data_t.hpp:84,
inserted_string_data_t.hpp:85, same_value_compress_string_data_t.hpp:72. -/
def Node.size : Node A → Nat
  | .null => 0
  | .comn _ m => m.length
  | .const _ m => m.length
  | .substr _ _ _ s => s
  | .head _ _ _ ts u => u + ts
  | .endA _ _ _ ts u => u + ts
  | .sum _ _ _ xs ys => xs + ys
  | .erased _ _ ts _ sz => ts - sz
  | .inserted _ _ _ ts _ sz => ts + sz
  | .same _ s _ => s

/-! ### Buffers -/

/-- `n` elements of an array from index `i`; reading past the end has no result. -/
def slice (m : List A) (i n : Nat) : Option (List A) :=
  if i + n ≤ m.length then some ((m.drop i).take n) else none

/-- `copy_assign[xs.size()]` into an array at index `i`; writing past the end has no result. -/
def overwrite (m : List A) (i : Nat) (xs : List A) : Option (List A) :=
  if i + xs.length ≤ m.length then some (m.take i ++ xs ++ m.drop (i + xs.length)) else none

/-- `memmove` inside one array. -/
def memmove (m : List A) (dst src n : Nat) : Option (List A) :=
  (slice m src n).bind (overwrite m dst)

/-- `copy_assign[n]` inside one array, that is `memcpy`
(F/base_defs/memory/lifetime/defs.hpp:608-611): undefined when the two ranges overlap. -/
def memcpy (m : List A) (dst src n : Nat) : Option (List A) :=
  if n = 0 ∨ src + n ≤ dst ∨ dst + n ≤ src then memmove m dst src n else none

variable [Inhabited A]

/-- An array of `n` unspecified characters (F/base/memory/get/defs.hpp:668). -/
def blank (n : Nat) : List A := List.replicate n default

/-- `realloc` of an array (F/base/memory/get/defs.hpp:209, 424). -/
def realloc (m : List A) (n : Nat) : List A := m.take n ++ blank (n - m.length)

/-- F/base/memory/get/defs.hpp:202-213 and 732-737, `part_used_insert_with_resize`
(F/base/container/array/defs.hpp:129-131). -/
def partUsedInsert (m : List A) (pos : Nat) (ins : List A) (toSize used : Nat) :
    Option (List A) :=
  let m1 := realloc m toSize
  (memmove m1 (pos + ins.length) pos (used - pos)).bind fun m2 => overwrite m2 pos ins

/-- F/base/memory/get/defs.hpp:413-431 and 832-839, `part_used_insert_with_forward_resize`
(F/base/container/array/defs.hpp:136-138). -/
def partUsedInsertForward (m : List A) (insertPos : Nat) (ins : List A) (toSize used : Nat) :
    Option (List A) :=
  if ins.length = 0 then some m
  else
    let unusedAfter := toSize - (used + ins.length)
    let unusedBefore := m.length - used
    let afterSize := m.length - insertPos
    let beforeSize := insertPos - unusedBefore
    let ip := insertPos - unusedBefore
    let m1 := realloc m toSize
    (memmove m1 (unusedAfter + ip + ins.length) (unusedBefore + ip) afterSize).bind fun m2 =>
    (memmove m2 unusedAfter unusedBefore beforeSize).bind fun m3 =>
    overwrite m3 (unusedAfter + ip) ins

/-! ### Making nodes -/

/-- `get<constexpr_string_data_t>(view)` constexpr_string_data_t.hpp:76-81. -/
def mkConst (m : List A) : Node A := if m.length = 0 then .null else .const fresh m

/-- `get<substr_string_data_t>` substr_string_data_t.hpp:62-64 with the null check
substr_string_data_t.hpp:57-60. -/
def mkSubstr (t : Node A) (b s : Nat) : Node A := if s = 0 then .null else .substr fresh t b s

/-- `get<sum_string_data_t>` sum_string_data_t.hpp:58-63. -/
def mkSum (x y : Node A) : Node A :=
  if x.size = 0 then y else if y.size = 0 then x else .sum fresh x y x.size y.size

/-- `get<erased_string_data_t>` erased_string_data_t.hpp:63-65 with the null check
erased_string_data_t.hpp:58-61. -/
def mkErased (t : Node A) (p s : Nat) : Node A :=
  if t.size = s ∨ t.size = 0 then .null else .erased fresh t t.size p s

/-- `get_clone_with_new_size` same_value_compress_string_data_t.hpp:60-64, on the node `same h size
v`. -/
def clone (h : Hd) (size : Nat) (v : A) (newSize : Nat) : Node A :=
  if newSize = size then .same h size v
  else if newSize = 0 then .null
  else .same fresh newSize v

/-- The constructor end_apply_string_data_t.hpp:58-65; `gold` is
`get_next_gold_size_to_resize_for_array` (F/base_defs/math.hpp:585-590). -/
def mkEnd (gold : Nat → Nat) (n : Node A) (str : List A) : Option (Node A) :=
  (overwrite (blank (gold (n.size + str.length))) 0 str).map fun m =>
    .endA fresh m n n.size str.length

/-- The constructor head_apply_string_data_t.hpp:58-65. -/
def mkHead (gold : Nat → Nat) (n : Node A) (str : List A) : Option (Node A) :=
  let m : List A := blank (gold (n.size + str.length))
  (overwrite m (m.length - str.length) str).map fun m => .head fresh m n n.size str.length

/-! ### Reads -/

/-- `base_t::get_substr_data` substr_string_data_t.hpp:213-219. -/
def baseSubstr (n : Node A) (b s : Nat) : Option (Node A) :=
  some (if b = 0 ∧ s = n.size then n else mkSubstr n b s)

/-- `get_substr_data`: null_string_data_t.hpp:60, constexpr_string_data_t.hpp:86-88,
substr_string_data_t.hpp:70, head_apply_string_data_t.hpp:97-102,
end_apply_string_data_t.hpp:112-117, sum_string_data_t.hpp:65-72, erased_string_data_t.hpp:67-74,
inserted_string_data_t.hpp:61-70, same_value_compress_string_data_t.hpp:69-71; comn inherits
substr_string_data_t.hpp:213-219. -/
def getSubstr : Node A → Nat → Nat → Option (Node A)
  | .null, _, _ => some .null
  | .comn h m, b, s => baseSubstr (.comn h m) b s
  | .const _ m, b, s => (slice m b s).map mkConst
  | .substr _ t sb _, b, s => some (mkSubstr t (b + sb) s)
  | .head h m t ts u, b, s =>
    if b ≥ u then getSubstr t (b - u) s else baseSubstr (.head h m t ts u) b s
  | .endA h m t ts u, b, s =>
    if b + s ≤ ts then getSubstr t b s else baseSubstr (.endA h m t ts u) b s
  | .sum h x y xs ys, b, s =>
    if b + s ≤ xs then getSubstr x b s
    else if b ≥ xs then getSubstr y (b - xs) s
    else baseSubstr (.sum h x y xs ys) b s
  | .erased h t ts p sz, b, s =>
    if b + s < p then getSubstr t b s
    else if b ≥ p then getSubstr t (b + sz) s
    else baseSubstr (.erased h t ts p sz) b s
  | .inserted h t ins ts p sz, b, s =>
    if b + s < p then getSubstr t b s
    else if b > p + sz then getSubstr t (b - sz) s
    else if b ≥ p ∧ b + s ≤ p + sz then getSubstr ins (b - p) s
    else baseSubstr (.inserted h t ins ts p sz) b s
  | .same h size v, _, s => some (clone h size v s)

/-- `arec`: null_string_data_t.hpp:72, comn_string_data_t.hpp:116, constexpr_string_data_t.hpp:100,
substr_string_data_t.hpp:82, head_apply_string_data_t.hpp:169-176,
end_apply_string_data_t.hpp:182-187, sum_string_data_t.hpp:105-110,
erased_string_data_t.hpp:110-115, inserted_string_data_t.hpp:152-159,
same_value_compress_string_data_t.hpp:78-80. -/
def arec : Node A → Nat → Option A
  | .null, _ => some default
  | .comn _ m, i => m[i]?
  | .const _ m, i => m[i]?
  | .substr _ t b _, i => arec t (i + b)
  | .head _ m t _ u, i => if i < u then m[m.length - u + i]? else arec t (i - u)
  | .endA _ m t ts _, i => if i < ts then arec t i else m[i - ts]?
  | .sum _ x y xs _, i => if i < xs then arec x i else arec y (i - xs)
  | .erased _ t _ p sz, i => if i ≥ p then arec t (i + sz) else arec t i
  | .inserted _ t ins _ p sz, i =>
    if i ≥ p ∧ i < p + sz then arec ins (i - p)
    else if i ≥ p + sz then arec t (i - sz)
    else arec t i
  | .same _ _ v, _ => some v

/-- `copy_part_data_to`: null_string_data_t.hpp:70, comn_string_data_t.hpp:114,
constexpr_string_data_t.hpp:98, substr_string_data_t.hpp:80, head_apply_string_data_t.hpp:151-167,
end_apply_string_data_t.hpp:165-180, sum_string_data_t.hpp:89-103, erased_string_data_t.hpp:86-97,
inserted_string_data_t.hpp:87-106, same_value_compress_string_data_t.hpp:74-76. The result is what
is written; a null node writes nothing, so that asking it for characters leaves the target
unspecified. -/
def copyPart : Node A → Nat → Nat → Option (List A)
  | .null, _, n => if n = 0 then some [] else none
  | .comn _ m, p, n => slice m p n
  | .const _ m, p, n => slice m p n
  | .substr _ t b _, p, n => copyPart t (p + b) n
  | .head _ m t _ u, p, n =>
    if p < u then
      let k := min (u - p) n
      (slice m (m.length - u + p) k).bind fun x =>
      if n ≠ k then (copyPart t 0 (n - k)).map (x ++ ·) else some x
    else copyPart t (p - u) n
  | .endA _ m t ts _, p, n =>
    if p + n ≤ ts then copyPart t p n
    else if p < ts then
      (copyPart t p (ts - p)).bind fun x => (slice m 0 (n - (ts - p))).map (x ++ ·)
    else slice m (p - ts) n
  | .sum _ x y xs _, p, n =>
    if p < xs then
      let k := min (p + n) xs - p
      (copyPart x p k).bind fun a =>
      if n ≠ k then (copyPart y 0 (n - k)).map (a ++ ·) else some a
    else copyPart y (p - xs) n
  | .erased _ t _ ep sz, p, n =>
    if p + n < ep then copyPart t p n
    else if p ≥ ep then copyPart t (p + sz) n
    else
      (copyPart t p (ep - p)).bind fun a =>
      (copyPart t (ep + sz) (n - (ep - p))).map (a ++ ·)
  | .inserted _ t ins _ ip sz, p, n =>
    if p + n < ip then copyPart t p n
    else if p > ip + sz then copyPart t (p - sz) n
    else
      let k := if ip > p then ip - p else 0
      (if ip > p then copyPart t p k else some []).bind fun a =>
      let n1 := n - k
      let k1 := min n1 sz
      (copyPart ins 0 k1).bind fun b =>
      let n2 := n1 - k1
      (if n2 ≠ 0 then copyPart t ip n2 else some []).map fun c => a ++ b ++ c
  | .same _ _ v, _, n => some (List.replicate n v)

/-- `get<comn_string_data_t>(this)` comn_string_data_t.hpp:78-82. -/
def toComn (n : Node A) : Option (Node A) := (copyPart n 0 n.size).map (.comn fresh)

/-- `get_the_largest_complete_data_block_begin_form`: null_string_data_t.hpp:83,
comn_string_data_t.hpp:129, constexpr_string_data_t.hpp:108, substr_string_data_t.hpp:196-200,
head_apply_string_data_t.hpp:318-327, end_apply_string_data_t.hpp:313-320,
sum_string_data_t.hpp:257-262, erased_string_data_t.hpp:248-257, inserted_string_data_t.hpp:353-364,
same_value_compress_string_data_t.hpp:170-175 with `max_static_data_size` = 512
(same_value_compress_string_data_t.hpp:56). -/
def block : Node A → Nat → Option (List A)
  | .null, _ => some []
  | .comn _ m, i => slice m i (wsub m.length i)
  | .const _ m, i => slice m i (wsub m.length i)
  | .substr _ t b s, i => (block t (b + i)).map fun x => x.take (wsub s i)
  | .head _ m t _ u, i =>
    if i ≥ u then block t (i - u) else slice m (m.length - u + i) (u - i)
  | .endA _ m t ts u, i =>
    if i < ts then block t i else slice m (i - ts) (wsub u (i - ts))
  | .sum _ x y xs _, i => if i < xs then block x i else block y (i - xs)
  | .erased _ t _ p sz, i =>
    if i < p then (block t i).map fun x => if x.length > p then x.take p else x
    else block t (i + sz)
  | .inserted _ t ins _ p sz, i =>
    if i ≥ p ∧ i < p + sz then block ins (i - p)
    else if i ≥ p + sz then block t (i - sz)
    else (block t i).map fun x => if x.length + i > p then x.take (p - i) else x
  | .same _ s v, i => if i ≤ s then some (List.replicate (min (s - i) 512) v) else none

/-- `do_output` base_string_data_t.hpp:472-480: the characters written; `none` when a block lies
outside its array or the loop does not end within `fuel` rounds. -/
def output (n : Node A) : Nat → Nat → Option (List A)
  | 0, _ => none
  | fuel + 1, i =>
    (block n i).bind fun x =>
      if x.length = 0 then some [] else (output n fuel (i + x.length)).map (x ++ ·)

/-! ### Hashes -/

/-- `get_hash` (base_string_data_t.hpp:403-410) and `get_others_hash_with_calculated_before`
(base_string_data_t.hpp:418-422) of a node with cache `c`, size `size` and the two `…_detail`
functions. -/
def withDetail (c : Option Word) (size : Nat) (detail : Option Word)
    (others : Word → Nat → Nat → Nat → Option Word) :
    Option Word × (Word → Nat → Nat → Nat → Option Word) :=
  let get : Option Word := match c with | some w => some w | none => detail
  (get, fun before bs pos n =>
    if pos = 0 ∧ n = size then get.map fun w => mergeArrayHashResults before bs w n
    else others before bs pos n)

/-- The pair of `get_hash` and `get_others_hash_with_calculated_before`; `hc` is the hash of one
character. Details: base_string_data_t.hpp:412-416, base_string_data_t.hpp:424-426 (comn, const),
null_string_data_t.hpp:79-80, substr_string_data_t.hpp:183-190,
head_apply_string_data_t.hpp:281-312, end_apply_string_data_t.hpp:285-304,
sum_string_data_t.hpp:223-251, erased_string_data_t.hpp:221-242, inserted_string_data_t.hpp:317-347,
same_value_compress_string_data_t.hpp:153-158. -/
def hashes (hc : A → Word) : Node A → Option Word × (Word → Nat → Nat → Nat → Option Word)
  | .null => withDetail none 0 (some hashNothing) fun before _ _ _ => some before
  | .comn h m => withDetail h.cache m.length (some (hashArray hc m)) fun before bs pos n =>
      (slice m pos n).map (withCalculatedBefore hc before bs)
  | .const h m => withDetail h.cache m.length (some (hashArray hc m)) fun before bs pos n =>
      (slice m pos n).map (withCalculatedBefore hc before bs)
  | .substr h t b s =>
    let T := hashes hc t
    withDetail h.cache s (T.2 hashNothing 0 b s) fun before bs pos n => T.2 before bs (pos + b) n
  | .head h m t ts u =>
    let T := hashes hc t
    withDetail h.cache (u + ts)
      (if u ≠ 0 then
        (slice m (m.length - u) u).bind fun x =>
          if ts ≠ 0 then T.1.map fun w => mergeArrayHashResults (hashArray hc x) u w ts
          else some (hashArray hc x)
      else T.1)
      fun before bs pos n =>
        if pos < u then
          let k := min (u - pos) n
          (slice m (m.length - u + pos) k).bind fun x =>
            let before := withCalculatedBefore hc before bs x
            if n ≠ k then T.2 before (bs + k) 0 (n - k) else some before
        else T.2 before bs (pos - u) n
  | .endA h m t ts u =>
    let T := hashes hc t
    withDetail h.cache (u + ts)
      (T.1.bind fun w => (slice m 0 u).map fun x => withCalculatedBefore hc w ts x)
      fun before bs pos n =>
        if pos + n ≤ ts then T.2 before bs pos n
        else if pos < ts then
          (T.2 before bs pos (ts - pos)).bind fun before =>
          (slice m 0 (n - (ts - pos))).map fun x =>
            withCalculatedBefore hc before (bs + (ts - pos)) x
        else (slice m (pos - ts) n).map fun x => withCalculatedBefore hc before bs x
  | .sum h x y xs ys =>
    let X := hashes hc x
    let Y := hashes hc y
    withDetail h.cache (xs + ys)
      (if xs ≠ 0 then
        X.1.bind fun a => if ys ≠ 0 then Y.1.map fun b => mergeArrayHashResults a xs b ys else some a
      else Y.1)
      fun before bs pos n =>
        if pos < xs then
          let k := min (pos + n) xs - pos
          (X.2 before bs pos k).bind fun before =>
            if n ≠ k then Y.2 before (bs + k) 0 (n - k) else some before
        else Y.2 before bs (pos - xs) n
  | .erased h t ts p sz =>
    let T := hashes hc t
    withDetail h.cache (ts - sz)
      ((T.2 hashNothing 0 0 p).bind fun r => T.2 r p (p + sz) (ts - sz - p))
      fun before bs pos n =>
        if pos + n < p then T.2 before bs pos n
        else if pos ≥ p then T.2 before bs (pos + sz) n
        else (T.2 before bs pos (p - pos)).bind fun before =>
          T.2 before (bs + (p - pos)) (p + sz) (n - (p - pos))
  | .inserted h t ins ts p sz =>
    let T := hashes hc t
    let I := hashes hc ins
    withDetail h.cache (ts + sz)
      ((if p ≠ 0 then T.2 hashNothing 0 0 p else some hashNothing).bind fun r =>
        (I.1.map fun w => mergeArrayHashResults r p w sz).bind fun r =>
        if ts - p ≠ 0 then T.2 r (p + sz) p (ts - p) else some r)
      fun before bs pos n =>
        if pos + n < p then T.2 before bs pos n
        else if pos > p + sz then T.2 before bs (pos - sz) n
        else
          let k := if p > pos then p - pos else 0
          (if p > pos then T.2 before bs pos k else some before).bind fun before =>
          let n1 := n - k
          let bs1 := bs + k
          let k1 := min n1 sz
          (I.2 before bs1 0 k1).bind fun before =>
          let n2 := n1 - k1
          if n2 ≠ 0 then T.2 before (bs1 + k1) p n2 else some before
  | .same h s v => withDetail h.cache s (some (repeatTimes (hc v) s)) fun before bs _ n =>
      some (mergeArrayHashResults before bs (repeatTimes (hc v) n) n)

/-- `get_hash` base_string_data_t.hpp:403-410. -/
def getHash (hc : A → Word) (n : Node A) : Option Word := (hashes hc n).1

/-- `get_others_hash_with_calculated_before` base_string_data_t.hpp:418-422. -/
def othersHash (hc : A → Word) (n : Node A) : Word → Nat → Nat → Nat → Option Word :=
  (hashes hc n).2

end
end ELC.Str
