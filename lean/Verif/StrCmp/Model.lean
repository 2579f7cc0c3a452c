import Verif.Str.Model
import Verif.Compare.Props
/-
Strings: equality and ordering of string nodes.  Models base_string_data_t.hpp:140-389 and the
`same_struct…` functions of the node files, all in F/string/string_data_t/.

Simplifications:
* nodes have no identity, so the shortcuts for one and the same node (base_string_data_t.hpp:160,
  174, 192, 286, 299, 313), for one array against itself (199, 223, 244, 320, 347, 368) and
  constexpr_string_data_t.hpp:111 and 117 are left out: they skip a comparison of a thing
  with itself;
* the replacement of one node by an equal one (153, 279) is not modelled: it keeps
  the characters when the result is right.
-/
namespace ELC.StrCmp
open Str Compare Hash

section
variable {A : Type} [Inhabited A] [DecidableEq A]

/-- The cached hash of a node: base_string_data_t.hpp:396-400. -/
def cacheOf : Node A → Option Word
  | .null => none
  | .comn h _ => h.cache
  | .const h _ => h.cache
  | .substr h _ _ _ => h.cache
  | .head h _ _ _ _ => h.cache
  | .endA h _ _ _ _ => h.cache
  | .sum h _ _ _ _ => h.cache
  | .erased h _ _ _ _ => h.cache
  | .inserted h _ _ _ _ _ => h.cache
  | .same h _ _ => h.cache

/-- base_string_data_t.hpp:163-165 and 177-179: both hashes are known and differ. -/
def cachesDiffer (n m : Node A) : Bool :=
  match cacheOf n, cacheOf m with
  | some a, some b => a != b
  | _, _ => false

/-- The next array of a node in the comparison loops: base_string_data_t.hpp:204-207. -/
def advance (n : Node A) (a : List A) (step index : Nat) : Option (List A) :=
  if a.length = step then block n index else some (a.drop step)

/-- base_string_data_t.hpp:197-215, the loop of `equal_with(with, pos, size)`.  A round that makes
no step changes nothing: it returns, or is repeated for ever, which has no result. -/
def eqLoop (n m : Node A) (a b : List A) (index size : Nat) : Option Bool :=
  if size = 0 then some true
  else
    let step := min (min a.length b.length) size
    if h : step = 0 then if a.length = 0 ∧ b.length = 0 then some true else none
    else
      (equalN step a b).bind fun e =>
      if !e then some false
      else
        (advance n a step (index + step)).bind fun a' =>
        (advance m b step (index + step)).bind fun b' =>
        if a'.length = 0 ∧ b'.length = 0 then some true
        else eqLoop n m a' b' (index + step) (size - step)
termination_by size

/-- base_string_data_t.hpp:190-216 `equal_with(with, pos, size)`. -/
def eqRange (n m : Node A) (pos size : Nat) : Option Bool :=
  (block n pos).bind fun a => (block m pos).bind fun b => eqLoop n m a b pos size

/-- `&&` of results. -/
def andR (a b : Option Bool) : Option Bool := a.bind fun r => if r then b else some false

/-- base_string_data_t.hpp:140-156 `base_equal_with`, with `same_struct` and `same_struct_equal`:
comn_string_data_t.hpp:126-133, constexpr_string_data_t.hpp:105-114,
substr_string_data_t.hpp:192-204, head_apply_string_data_t.hpp:314-333,
end_apply_string_data_t.hpp:309-324, sum_string_data_t.hpp:253-266,
erased_string_data_t.hpp:244-261, inserted_string_data_t.hpp:349-368,
same_value_compress_string_data_t.hpp:160-182, null_string_data_t.hpp:82.
`equal_with_same_size` (base_string_data_t.hpp:172-183) of the children is inlined. -/
def eqBase : Node A → Node A → Option Bool
  | .comn _ m, .comn _ m' => equalSized m m.length m' m'.length
  | .const _ m, .const _ m' => equalN m.length m m'
  | .substr h t b s, .substr h' t' b' s' =>
    if b = b' then eqRange t t' b s
    else eqRange (.substr h t b s) (.substr h' t' b' s') 0 s
  | .head h m t ts u, .head h' m' t' ts' u' =>
    if u = u' then
      (slice m (m.length - u) u).bind fun x =>
      (slice m' (m'.length - u) u).bind fun x' =>
      andR (equalN u x x') (if cachesDiffer t t' then some false else eqBase t t')
    else eqRange (.head h m t ts u) (.head h' m' t' ts' u') 0 (u + ts)
  | .endA h m t ts u, .endA h' m' t' ts' u' =>
    if u = u' then
      andR (if cachesDiffer t t' then some false else eqBase t t') (equalN u m m')
    else eqRange (.endA h m t ts u) (.endA h' m' t' ts' u') 0 (u + ts)
  | .sum h x y xs ys, .sum h' x' y' xs' ys' =>
    if xs = xs' then
      andR (if cachesDiffer x x' then some false else eqBase x x')
        (if cachesDiffer y y' then some false else eqBase y y')
    else eqRange (.sum h x y xs ys) (.sum h' x' y' xs' ys') 0 (xs + ys)
  | .erased h t ts p s, .erased h' t' ts' p' s' =>
    if p = p' ∧ s = s' then andR (eqRange t t' 0 p) (eqRange t t' (p + s) ts)
    else eqRange (.erased h t ts p s) (.erased h' t' ts' p' s') 0 (ts - s)
  | .inserted h t i ts p s, .inserted h' t' i' ts' p' s' =>
    if p = p' ∧ s = s' then
      andR (if cachesDiffer i i' then some false else eqBase i i')
        (if cachesDiffer t t' then some false else eqBase t t')
    else eqRange (.inserted h t i ts p s) (.inserted h' t' i' ts' p' s') 0 (ts + s)
  | .same _ _ v, .same _ _ v' => some (decide (v = v'))
  | n, m => eqRange n m 0 n.size

/-- base_string_data_t.hpp:158-171 `equal_with(with)`. -/
def equalWith (n m : Node A) : Option Bool :=
  if cachesDiffer n m then some false
  else if n.size ≠ m.size then some false
  else eqBase n m

/-- base_string_data_t.hpp:225-238, the loop of `equal_with(string_view)`. -/
def eqViewLoop (n : Node A) (w a : List A) (index size : Nat) : Option Bool :=
  let step := min (min a.length (w.length - index)) size
  (equalN step a (w.drop index)).bind fun e =>
  if !e then some false
  else
    (advance n a step (index + step)).bind fun a' =>
    if a'.length = 0 ∨ size - step = 0 then some (decide (a'.length = size - step))
    else if h : step = 0 then none
    else eqViewLoop n w a' (index + step) (size - step)
termination_by size

/-- base_string_data_t.hpp:217-239 `equal_with(string_view)`. -/
def equalView (n : Node A) (w : List A) : Option Bool :=
  if n.size ≠ w.length then some false
  else (block n 0).bind fun a => eqViewLoop n w a 0 w.length

/-- base_string_data_t.hpp:246-263, the loop of `equal_with(const char*)`; `mem` is the memory at
the pointer. -/
def eqZeroLoop (zero : A) (n : Node A) (mem a : List A) (index size : Nat) : Option Bool :=
  match mem[index]? with
  | none => none
  | some c =>
    if c = zero then some false
    else
      let step := min a.length size
      (equalPart zero step a (mem.drop index)).bind fun e =>
      if !e then some false
      else
        (advance n a step (index + step)).bind fun a' =>
        match mem[index + step]? with
        | none => none
        | some d =>
          if d = zero then some (decide (a'.length = 0))
          else if a'.length = 0 then some (decide (d = zero))
          else if h : step = 0 then none
          else eqZeroLoop zero n mem a' (index + step) (size - step)
termination_by size

/-- base_string_data_t.hpp:240-264 `equal_with(const char*)`. -/
def equalZ (zero : A) (n : Node A) (mem : List A) : Option Bool :=
  (block n 0).bind fun a => eqZeroLoop zero n mem a 0 n.size

/-! ### Ordering -/

variable (cmp : A → A → Ordering)

/-- base_string_data_t.hpp:318-336, the loop of `compare_with(with, pos, size)`. -/
def cmpLoop (n m : Node A) (a b : List A) (index size : Nat) : Option Ordering :=
  if size = 0 then some .eq
  else
    let step := min (min a.length b.length) size
    (compareN cmp step a b).bind fun o =>
    if o ≠ .eq then some o
    else
      (advance n a step (index + step)).bind fun a' =>
      (advance m b step (index + step)).bind fun b' =>
      if a'.length = 0 ∨ b'.length = 0 then some (compare a'.length b'.length)
      else if h : step = 0 then none
      else cmpLoop n m a' b' (index + step) (size - step)
termination_by size

/-- base_string_data_t.hpp:311-337 `compare_with(with, pos, size)`. -/
def cmpRange (n m : Node A) (pos size : Nat) : Option Ordering :=
  (block n pos).bind fun a => (block m pos).bind fun b => cmpLoop cmp n m a b pos size

/-- `if(tmp != 0) return tmp; return …`. -/
def thenR (a b : Option Ordering) : Option Ordering := a.bind fun o => if o ≠ .eq then some o else b

/-- base_string_data_t.hpp:266-282 `base_compare_with`, with `same_struct` and
`same_struct_compare`: comn_string_data_t.hpp:134-137, constexpr_string_data_t.hpp:115-120,
substr_string_data_t.hpp:205-208, head_apply_string_data_t.hpp:334-341,
end_apply_string_data_t.hpp:325-330, sum_string_data_t.hpp:267-272,
erased_string_data_t.hpp:262-267, inserted_string_data_t.hpp:369-376,
same_value_compress_string_data_t.hpp:183-186.  `compare_with_same_size` (297-304) of
the children is `base_compare_with`. -/
def cmpBase : Node A → Node A → Option Ordering
  | .comn _ m, .comn _ m' => compareSized cmp m m.length m' m'.length
  | .const _ m, .const _ m' => compareN cmp m.length m m'
  | .substr h t b s, .substr h' t' b' s' =>
    if b = b' then cmpRange cmp t t' b s
    else cmpRange cmp (.substr h t b s) (.substr h' t' b' s') 0 s
  | .head h m t ts u, .head h' m' t' ts' u' =>
    if u = u' then
      (slice m (m.length - u) u).bind fun x =>
      (slice m' (m'.length - u) u).bind fun x' =>
      thenR (compareN cmp u x x') (cmpBase t t')
    else cmpRange cmp (.head h m t ts u) (.head h' m' t' ts' u') 0 (u + ts)
  | .endA h m t ts u, .endA h' m' t' ts' u' =>
    if u = u' then thenR (cmpBase t t') (compareN cmp u m m')
    else cmpRange cmp (.endA h m t ts u) (.endA h' m' t' ts' u') 0 (u + ts)
  | .sum h x y xs ys, .sum h' x' y' xs' ys' =>
    if xs = xs' then thenR (cmpBase x x') (cmpBase y y')
    else cmpRange cmp (.sum h x y xs ys) (.sum h' x' y' xs' ys') 0 (xs + ys)
  | .erased h t ts p s, .erased h' t' ts' p' s' =>
    if p = p' ∧ s = s' then thenR (cmpRange cmp t t' 0 p) (cmpRange cmp t t' (p + s) ts)
    else cmpRange cmp (.erased h t ts p s) (.erased h' t' ts' p' s') 0 (ts - s)
  | .inserted h t i ts p s, .inserted h' t' i' ts' p' s' =>
    if p = p' ∧ s = s' then
      thenR (cmpRange cmp t t' 0 p)
        (thenR (cmpBase i i') (cmpRange cmp t t' p (wsub ts (p + s))))
    else cmpRange cmp (.inserted h t i ts p s) (.inserted h' t' i' ts' p' s') 0 (ts + s)
  | .same _ _ v, .same _ _ v' => some (cmp v v')
  | n, m => cmpRange cmp n m 0 n.size

/-- base_string_data_t.hpp:284-296 `compare_with(with)`. -/
def compareWith (n m : Node A) : Option Ordering :=
  if compare n.size m.size ≠ .eq then some (compare n.size m.size) else cmpBase cmp n m

/-- base_string_data_t.hpp:349-362, the loop of `compare_with(string_view)`. -/
def cmpViewLoop (n : Node A) (w a : List A) (index size : Nat) : Option Ordering :=
  let step := min (min a.length (w.length - index)) size
  (compareN cmp step a (w.drop index)).bind fun o =>
  if o ≠ .eq then some o
  else
    (advance n a step (index + step)).bind fun a' =>
    if a'.length = 0 ∨ size - step = 0 then some (compare a'.length (size - step))
    else if h : step = 0 then none
    else cmpViewLoop n w a' (index + step) (size - step)
termination_by size

/-- base_string_data_t.hpp:338-363 `compare_with(string_view)`. -/
def compareView (n : Node A) (w : List A) : Option Ordering :=
  if compare n.size w.length ≠ .eq then some (compare n.size w.length)
  else (block n 0).bind fun a => cmpViewLoop cmp n w a 0 w.length

/-- base_string_data_t.hpp:370-388, the loop of `compare_with(const char*)`. -/
def cmpZeroLoop (zero : A) (n : Node A) (mem a : List A) (index size : Nat) : Option Ordering :=
  match mem[index]? with
  | none => none
  | some c =>
    if c = zero then some .gt
    else
      let step := min a.length size
      (comparePart cmp zero a step (mem.drop index)).bind fun o =>
      if o ≠ .eq then some o
      else
        (advance n a step (index + step)).bind fun a' =>
        match mem[index + step]? with
        | none => none
        | some d =>
          if a'.length = 0 then some (if d = zero then .eq else .lt)
          else if d = zero then some .gt
          else if h : step = 0 then none
          else cmpZeroLoop zero n mem a' (index + step) (size - step)
termination_by size

/-- base_string_data_t.hpp:364-389 `compare_with(const char*)`. -/
def compareZ (zero : A) (n : Node A) (mem : List A) : Option Ordering :=
  (block n 0).bind fun a => cmpZeroLoop cmp zero n mem a 0 n.size

end
end ELC.StrCmp
