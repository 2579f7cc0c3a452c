import Verif.StrEdit.Model
import Verif.StrCmp.Model
import Verif.Search.Model
/-
Strings as the user has them: `string_t`, F/string/defs.hpp.  Line numbers without a file name are
in that file; other bare file names are in F/string/string_data_t/.

A string is a compile-time text, a single character, or a pointer to a node.  The simplifications of
Verif/Str/Model.lean and Verif/StrEdit/Model.lean hold here too, and:
* `gold` is how buffers grow, `th` the size from which a compile-time text is turned into a node
  before it is copied (126-129): any number;
* `pad` is the memory behind the characters of a string that may be read besides them; `zero` is the
  terminator `char_T{}`;
* the shortcut for two texts that begin at the same address (288, 296) is left out: it skips a
  comparison of a thing with itself;
* an operand is another object than the string itself, except in the functions named `…Self`.
`none` is a result the code does not define: a read outside an array or of an object that no longer
exists, or a loop that does not end within `fuel` rounds.
-/
namespace ELC.Text
open Hash Str StrEdit StrCmp Compare

/-- 51-71: `_cso_info` and `_cso_flags`. -/
inductive Text (A : Type) where
  | lit : List A → Text A
  | chr : A → Text A
  | node : Node A → Text A
  deriving DecidableEq

section
variable {A : Type}

/-- The node with another owner. -/
def share : Node A → Node A
  | .null => .null
  | .comn h m => .comn { h with uniq := false } m
  | .const h m => .const { h with uniq := false } m
  | .substr h t b s => .substr { h with uniq := false } t b s
  | .head h m t ts u => .head { h with uniq := false } m t ts u
  | .endA h m t ts u => .endA { h with uniq := false } m t ts u
  | .sum h x y xs ys => .sum { h with uniq := false } x y xs ys
  | .erased h t ts p s => .erased { h with uniq := false } t ts p s
  | .inserted h t i ts p s => .inserted { h with uniq := false } t i ts p s
  | .same h s v => .same { h with uniq := false } s v

variable [Inhabited A] [DecidableEq A] (hc : A → Word) (gold : Nat → Nat) (th : Nat)

/-- 475 `size` with 100. -/
def Text.size : Text A → Nat
  | .lit m => m.length
  | .chr _ => 1
  | .node n => n.size

/-- 110-118 and 137-140, `_cso_check(need_write)`: the node of a string.  The node of a compile-time
text has its hash: constexpr_string_data_t.hpp:68-75. -/
def fin (needWrite : Bool) : Text A → Node A
  | .lit m => if needWrite then .comn fresh m else .const ⟨true, some (hashArray hc m)⟩ m
  | .chr a => .comn fresh [a]
  | .node n => n

/-- 130-133 `full_copy_cso_check`. -/
def fullCopyCheck (t : Text A) : Text A := if t.size ≥ th then .node (fin hc false t) else t

/-! ### Reading -/

/-- 319-324 `arec`. -/
def get : Text A → Nat → Option A
  | .lit m, i => m[i]?
  | .chr a, i => if i = 0 then some a else none
  | .node n, i => arec n i

/-- 462-470 `substr`; `npos` is any size that is large enough. -/
def substr (t : Text A) (b s : Nat) : Option (Text A) :=
  let s := min s (wsub t.size b)
  if s ≠ 0 then (getSubstr (fin hc false t) b s).map .node else some (.lit [])

/-- `get_c_str`: null_string_data_t.hpp:55-58, comn_string_data_t.hpp:105,
head_apply_string_data_t.hpp:103-108, end_apply_string_data_t.hpp:118-123; the others inherit
comn_string_data_t.hpp:155-162.  The result is the memory at the pointer. -/
def cStr (zero : A) : Node A → Option (List A)
  | .null => some [zero]
  | .comn _ m => some (m ++ [zero])
  | .head h m t ts u =>
    if u = 0 then cStr zero t else (copyPart (.head h m t ts u) 0 (u + ts)).map (· ++ [zero])
  | .endA h m t ts u =>
    if u = 0 then cStr zero t else (copyPart (.endA h m t ts u) 0 (u + ts)).map (· ++ [zero])
  | n => (copyPart n 0 n.size).map (· ++ [zero])

/-- `get_const_c_str`: substr_string_data_t.hpp:71-76, constexpr_string_data_t.hpp:90-95; the others
inherit base_string_data_t.hpp:74.  A compile-time text with another character than the terminator
behind it is copied; either way the memory is the same. -/
def constCStr (zero : A) : Node A → Option (List A)
  | .const _ m => some (m ++ [zero])
  | .substr h t b s =>
    if b + s = t.size then (constCStr zero t).bind fun m => if b ≤ m.length then some (m.drop b) else none
    else cStr zero (.substr h t b s)
  | n => cStr zero n

/-- `get_data`: substr_string_data_t.hpp:77, constexpr_string_data_t.hpp:89; the others inherit
base_string_data_t.hpp:75. -/
def nodeData (zero : A) : Node A → Option (List A)
  | .const _ m => some m
  | .substr _ t b _ =>
    (nodeData zero t).bind fun m => if b ≤ m.length then some (m.drop b) else none
  | n => cStr zero n

/-- 471 `data`: the memory at the pointer.  A compile-time text has its terminator behind it. -/
def data (zero : A) : Text A → Option (List A)
  | .lit m => some (m ++ [zero])
  | .chr a => some [a]
  | .node n => nodeData zero n

/-- 473 `c_str`.  The memory behind a single character (the union, 51-67) is not known. -/
def textCStr (zero : A) : Text A → Option (List A)
  | .lit m => some (m ++ [zero])
  | .chr a => some [a]
  | .node n => constCStr zero n

/-- 644 `operator string_view_t`: the characters of the view. -/
def view (zero : A) (t : Text A) : Option (List A) :=
  (data zero t).bind fun m => if t.size ≤ m.length then some (m.take t.size) else none

/-- 648 `operator hash_t` with 101. -/
def hash : Text A → Option Word
  | .lit m => some (hashArray hc m)
  | .chr a => some (hc a)
  | .node n => getHash hc n

/-- 317 `unique_c_str`, a write through the pointer at index `i` (472, 474, 342, 646):
comn_string_data_t.hpp:106-111, 164-168. -/
def writeThrough (t : Text A) (i : Nat) (a : A) : Option (Text A) :=
  match fin hc true t with
  | .comn h m =>
    if h.uniq then (setAt m i a).map fun m => .node (.comn h m)
    else (setAt m i a).map fun m => .node (.comn fresh m)
  | n => (copyPart n 0 n.size).bind fun m => (setAt m i a).map fun m => .node (.comn fresh m)

/-! ### Constructing -/

/-- 177 `string_t(size, ch)`. -/
def ofRun (size : Nat) (ch : A) : Text A := .node (.same fresh size ch)

/-- 479-491 `resize(nsize, ch)`; end_apply_string_data_t.hpp:66-73. -/
def resizeWith (t : Text A) (n : Nat) (ch : A) : Option (Text A) :=
  if t.size > n then substr hc t 0 n
  else if t.size = n then some t
  else if t.size ≠ 0 then
    let node := fin hc false t
    let k := n - t.size
    (overwrite (blank (gold (node.size + k))) 0 (List.replicate k ch)).map fun m =>
      .node (.endA fresh m node node.size k)
  else some (ofRun n ch)

/-- 492-504 `resize(nsize)`; end_apply_string_data_t.hpp:74-80. -/
def resize (t : Text A) (n : Nat) : Option (Text A) :=
  if t.size > n then substr hc t 0 n
  else if t.size = n then some t
  else if t.size ≠ 0 then
    let node := fin hc false t
    some (.node (.endA fresh (blank (gold (node.size + (n - t.size)))) node node.size (n - t.size)))
  else some (.node (.comn fresh (blank n)))

/-- 547-552 `string_t(begin, end)` of two iterators into one string: `_m` of a string that is not a
node is not a pointer. -/
def ofIterators (t : Text A) (b e : Nat) : Option (Text A) :=
  (substr hc t b (wsub e b)).bind fun
    | .node n => some (.node n)
    | _ => none

/-- 187 `operator=(const string_t&)` of a string to itself: the node is released before it is copied
(F/base_defs/memory/lifetime/defs.hpp:310-317). -/
def assignSelf : Text A → Option (Text A)
  | .node n => if n.uniq then none else some (.node n)
  | t => some t

/-! ### Adding -/

/-- 579 `push_back(string_view_t)`. -/
def pushBackV (t : Text A) (str : List A) : Option (Text A) :=
  (endV gold (fin hc false t) str).map .node

/-- 618 `push_front(string_view_t)`. -/
def pushFrontV (t : Text A) (str : List A) : Option (Text A) :=
  (beginV gold (fin hc false t) str).map .node

/-- Whether `apply_str_to_begin(str)` returns the node itself, changed in place or not changed: see
`StrEdit.beginV`. -/
def beginSelf (str : List A) : Node A → Bool
  | .null => false
  | .substr h _ b _ => if h.uniq ∧ b = 0 then true else str.length = 0
  | .head h _ _ _ _ => h.uniq || str.length = 0
  | .endA h _ _ _ _ => h.uniq || str.length = 0
  | .sum h _ _ _ _ => h.uniq || str.length = 0
  | .erased h _ _ _ _ => h.uniq || str.length = 0
  | .inserted h _ _ _ _ _ => h.uniq || str.length = 0
  | _ => str.length = 0

/-- Whether `apply_str_to_end(str)` returns the node itself: see `StrEdit.endV`. -/
def endSelf (str : List A) : Node A → Bool
  | .null => false
  | .substr h t b s => if h.uniq ∧ b + s = t.size then true else str.length = 0
  | .head h _ _ _ _ => h.uniq || str.length = 0
  | .endA h _ _ _ _ => h.uniq || str.length = 0
  | .sum h _ _ _ _ => h.uniq || str.length = 0
  | .erased h _ _ _ _ => h.uniq || str.length = 0
  | .inserted h _ _ _ _ _ => h.uniq || str.length = 0
  | _ => str.length = 0

/-- The characters of a string that is not a node. -/
def short : Text A → Option (List A)
  | .lit m => some m
  | .chr a => some [a]
  | .node _ => none

/-- 555-566 `push_back(const string_t&)`: the string and the operand afterwards. -/
def pushBack (t str : Text A) : Option (Text A × Text A) :=
  match fullCopyCheck hc th t, fullCopyCheck hc th str with
  | .node n, .node m => (endP gold n (share m)).map fun r => (.node r, .node (share m))
  | t, .node m =>
    (short t).bind fun v =>
    if beginSelf v m then (beginV gold m v).map fun r => (.node (share r), .node (share r))
    else (beginV gold (share m) v).map fun r => (.node r, .node (share m))
  | t, str => (short str).bind fun v => (pushBackV hc gold t v).map fun r => (r, str)

/-- 567-578 `push_back(string_t&&)`: the operand is given up. -/
def pushBackMove (t str : Text A) : Option (Text A) :=
  match fullCopyCheck hc th t, fullCopyCheck hc th str with
  | .node n, .node m => (endP gold n m).map .node
  | t, .node m => (short t).bind fun v => (beginV gold m v).map .node
  | t, str => (short str).bind fun v => pushBackV hc gold t v

/-- 584-589 `push_back(ch, count)`. -/
def pushBackRun (t : Text A) (ch : A) (count : Nat) : Option (Text A) :=
  if count = 0 then some t
  else (endP gold (fin hc false t) (.same ⟨false, none⟩ count ch)).map .node

/-- 594-605 `push_front(const string_t&)`. -/
def pushFront (t str : Text A) : Option (Text A × Text A) :=
  match fullCopyCheck hc th t, fullCopyCheck hc th str with
  | .node n, .node m => (beginP gold n (share m)).map fun r => (.node r, .node (share m))
  | t, .node m =>
    (short t).bind fun v =>
    if endSelf v m then (endV gold m v).map fun r => (.node (share r), .node (share r))
    else (endV gold (share m) v).map fun r => (.node r, .node (share m))
  | t, str => (short str).bind fun v => (pushFrontV hc gold t v).map fun r => (r, str)

/-- 623-628 `push_front(ch, count)`. -/
def pushFrontRun (t : Text A) (ch : A) (count : Nat) : Option (Text A) :=
  if count = 0 then some t
  else (beginP gold (fin hc false t) (.same ⟨false, none⟩ count ch)).map .node

/-- 201-203 `operator+(string_view_t)`: the copy of the pointer (145-148) is another owner. -/
def plusV (t : Text A) (str : List A) : Option (Text A) :=
  (endV gold (share (fin hc false t)) str).map .node

/-- 207-209 `operator+(string_view_t, const string_t&)`. -/
def vPlus (str : List A) (t : Text A) : Option (Text A) :=
  (beginV gold (share (fin hc false t)) str).map .node

/-- 194-200 `operator+(const string_t&)`. -/
def plus (t str : Text A) : Option (Text A) :=
  match fullCopyCheck hc th str with
  | .node m => (endP gold (share (fin hc false t)) (share m)).map .node
  | str => (short str).bind fun v => plusV hc gold t v

/-- 194-200 `s + s`.  The view of a single character points into the union (51-67, 99) where the
node pointer is put before the view is read (110-118, 145-148). -/
def plusSelf (t : Text A) : Option (Text A) :=
  match fullCopyCheck hc th t with
  | .node m => (endP gold (share m) (share m)).map .node
  | .lit m => plusV hc gold (.lit m) m
  | .chr _ => none

/-- 555-566 `s += s`. -/
def pushBackSelf (t : Text A) : Option (Text A) :=
  match fullCopyCheck hc th t with
  | .node m => (endP gold (share m) (share m)).map .node
  | .lit m => pushBackV hc gold (.lit m) m
  | .chr _ => none

/-- 956-960 `pad_left`. -/
def padLeft (t : Text A) (size : Nat) (ch : A) : Option (Text A) :=
  if size ≤ t.size then some t
  else (pushBack hc gold th (ofRun (size - t.size) ch) t).map (·.1)

/-- 965-969 `pad_right`. -/
def padRight (t : Text A) (size : Nat) (ch : A) : Option (Text A) :=
  if size ≤ t.size then some t else plus hc gold th t (ofRun (size - t.size) ch)

/-- 325, 462-470, 555-641 and 850-866: the edits of one string.  `_cso_check(1)` is for
assignment only. -/
def edit (t : Text A) : Edit A → Option (Text A)
  | .assign i a => (runEdit gold (fin hc true t) (.assign i a)).map .node
  | e => (runEdit gold (fin hc false t) e).map .node

/-- 853-860 `insert(pos, const string_t&)`: the operand is converted to a view. -/
def insert (zero : A) (t : Text A) (pos : Nat) (str : Text A) : Option (Text A) :=
  (view zero str).bind fun v => (insertV gold (fin hc false t) pos v).map .node

/-! ### Comparing -/

/-- 281-286 `operator==(string_view_t)`; `behind` is the memory behind the view. -/
def eqV (t : Text A) (w behind : List A) : Option Bool :=
  match t with
  | .lit m => equalN m.length m (w ++ behind)
  | .chr a => equalN 1 [a] (w ++ behind)
  | .node n => equalView n w

/-- 295-302 `operator==(constexpr_str_t&)`: the result, and the string afterwards. -/
def eqLit (zero : A) (t : Text A) (a : List A) : Option (Bool × Text A) :=
  (eqV t a [zero]).map fun r => if r then (true, .lit a) else (false, t)

/-- 263-274 `operator==(const string_t&)`: the result, and both strings afterwards.  The memory behind
a single character is not known. -/
def eq (zero : A) (t a : Text A) : Option (Bool × Text A × Text A) :=
  match a with
  | .lit l => (eqLit zero t l).map fun r => (r.1, r.2, a)
  | .chr c => (eqV t [c] []).map fun r => (r, t, a)
  | .node m =>
    match t with
    | .node n => (equalWith n m).map fun r => (r, t, a)
    | .lit l => (eqLit zero a l).map fun r => (r.1, t, r.2)
    | .chr c => (eqV a [c] []).map fun r => (r, t, a)

/-- 309-314 `operator==(const_string_ptr_t)`; `mem` is the memory at the pointer. -/
def eqZ (zero : A) (t : Text A) (mem : List A) : Option Bool :=
  match t with
  | .lit m => equalZero zero m.length m mem
  | .chr a => equalZero zero 1 [a] mem
  | .node n => equalZ zero n mem

variable (cmp : A → A → Ordering)

/-- 275-280 `operator<=>(string_view_t)`. -/
def cmpV (t : Text A) (w behind : List A) : Option Ordering :=
  match t with
  | .lit m => compareN cmp m.length m (w ++ behind)
  | .chr a => compareN cmp 1 [a] (w ++ behind)
  | .node n => compareView cmp n w

/-- 287-294 `operator<=>(constexpr_str_t&)`. -/
def cmpLit (zero : A) (t : Text A) (a : List A) : Option (Ordering × Text A) :=
  (cmpV cmp t a [zero]).map fun r => if r = .eq then (.eq, .lit a) else (r, t)

/-- 251-262 `operator<=>(const string_t&)`. -/
def cmpT (zero : A) (t a : Text A) : Option (Ordering × Text A × Text A) :=
  match a with
  | .lit l => (cmpLit cmp zero t l).map fun r => (r.1, r.2, a)
  | .chr c => (cmpV cmp t [c] []).map fun r => (r, t, a)
  | .node m =>
    match t with
    | .node n => (compareWith cmp n m).map fun r => (r, t, a)
    | .lit l => (cmpLit cmp zero a l).map fun r => (r.1.swap, t, r.2)
    | .chr c => (cmpV cmp a [c] []).map fun r => (r.swap, t, a)

/-- 303-308 `operator<=>(const_string_ptr_t)`. -/
def cmpZ (zero : A) (t : Text A) (mem : List A) : Option Ordering :=
  match t with
  | .lit m => compareSizedZero cmp zero m m.length mem
  | .chr a => compareSizedZero cmp zero [a] 1 mem
  | .node n => compareZ cmp zero n mem

/-! ### Searching -/

/-- 652-660 `find(ch)`. -/
def find (zero : A) (t : Text A) (ch : A) : Option (Option Nat) :=
  match t with
  | .lit m => some (Search.inRange ch m)
  | .chr a => some (if a = ch then some 0 else none)
  | .node n => (view zero (.node n)).map fun v => Search.inRange ch v

/-- 664-672 `reverse_find(ch)`. -/
def reverseFind (zero : A) (t : Text A) (ch : A) : Option (Option Nat) :=
  match t with
  | .lit m => some (Search.inRangeReverse ch m)
  | .chr a => some (if a = ch then some 0 else none)
  | .node n => (view zero (.node n)).map fun v => Search.inRangeReverse ch v

/-- F/base_defs/string_view.hpp:127-129 `substr(pos)` of a view. -/
def viewFrom (v : List A) (b : Nat) : Option (List A) :=
  if b ≤ v.length then some (v.drop b) else none

/-- 661-663 `find(ch, begin)`. -/
def findFrom (zero : A) (t : Text A) (ch : A) (b : Nat) : Option (Option Nat) :=
  (view zero t).bind fun v => (viewFrom v b).map fun v => Search.inRange ch v

/-- 673-675 `find(string_view_t, begin)` and 679-681 `find(constexpr_str_t&, begin)`. -/
def findViewFrom (zero : A) (idx : A → Nat) (pad : List A) (t : Text A) (p : List A) (b : Nat) :
    Option (Option Nat) :=
  (view zero t).bind fun v => (viewFrom v b).bind fun v =>
    Search.matchPattern idx p (v ++ pad) v.length

/-- 685-697 `find(const string_t&, begin)`.  The pattern of a node is that of its flat copy:
comn_string_data_t.hpp:180-184. -/
def findTextFrom (zero : A) (idx : A → Nat) (pad : List A) (t str : Text A) (b : Nat) :
    Option (Option Nat) :=
  match str with
  | .lit p => findViewFrom zero idx pad t p b
  | .chr c => findFrom zero t c b
  | .node m =>
    (copyPart m 0 m.size).bind fun p =>
    (findViewFrom zero idx pad t p b).map fun o => o.map (· + b)

/-- 712-717 `find_first_of(string_view_t)` and `find_first_of(constexpr_str_t&)`; the bitmark of a
compile-time text is made as the other is (constexpr_str.hpp:77-86, 133-167).  Characters are given by their
unsigned value; `wide` says that they have more than 256 values. -/
def findFirstOfV (wide : Bool) (zero : Nat) (t : Text Nat) (p : List Nat) : Option (Option Nat) :=
  (view zero t).bind fun v => Search.findFirstOf wide p v

/-- 718-735 `find_first_of` of a string or a character. -/
def findFirstOf (wide : Bool) (zero : Nat) (t str : Text Nat) : Option (Option Nat) :=
  match str with
  | .lit p => findFirstOfV wide zero t p
  | .chr c => find zero t c
  | .node m => (view zero (.node m)).bind fun p => findFirstOfV wide zero t p

/-- 736-759 `find_first_not_of`.  The overload for a character (755) calls `string_view_t(ch)`, which no
constructor takes; it is read as the view of that character. -/
def findFirstNotOf (wide : Bool) (zero : Nat) (t str : Text Nat) : Option (Option Nat) :=
  (view zero str).bind fun p => (view zero t).bind fun v => Search.findFirstNotOf wide p v

/-- 760-783 `find_last_of`. -/
def findLastOf (wide : Bool) (zero : Nat) (t str : Text Nat) : Option (Option Nat) :=
  match str with
  | .lit p => (view zero t).bind fun v => Search.findLastOf wide p v
  | .chr c => reverseFind zero t c
  | .node m => (view zero (.node m)).bind fun p => (view zero t).bind fun v => Search.findLastOf wide p v

/-- 784-807 `find_last_not_of`.  `find_last_not_of_size_t` of a compile-time text (string_view.hpp:98) gives
its difference the type of a pointer, so that overload does not compile when used; it is read as the other. -/
def findLastNotOf (wide : Bool) (zero : Nat) (t str : Text Nat) : Option (Option Nat) :=
  (view zero str).bind fun p => (view zero t).bind fun v => Search.findLastNotOf wide p v

/-- 811-819 `arec(index, delimiter)`: the loop. -/
def splitLoop (zero : A) (t : Text A) (d : A) : Nat → Nat → Nat → Option (Nat × Nat)
  | 0, pos, end_ => some (pos, end_)
  | k + 1, _, end_ =>
    (findFrom zero t d end_).bind fun e => splitLoop zero t d k end_ (e.getD (2 ^ 64 - 1))

/-- 811-819 `arec(index, delimiter)`. -/
def split (zero : A) (t : Text A) (k : Nat) (d : A) : Option (Text A) :=
  (find zero t d).bind fun p =>
  let pos := p.getD (2 ^ 64 - 1)
  (findFrom zero t d pos).bind fun e =>
  (splitLoop zero t d k pos (e.getD (2 ^ 64 - 1))).bind fun r =>
  substr hc t r.1 (wsub r.2 r.1)

/-- 891-895 `starts_with(string_view_t)`. -/
def startsWith (t : Text A) (w behind : List A) : Option Bool :=
  if t.size < w.length then some false
  else (substr hc t 0 w.length).bind fun s => eqV s w behind

/-- 919-923 `ends_with(string_view_t)`. -/
def endsWith (t : Text A) (w behind : List A) : Option Bool :=
  if t.size < w.length then some false
  else (substr hc t (t.size - w.length) (2 ^ 64 - 1)).bind fun s => eqV s w behind

/-- 901-913 `starts_with(const string_t&)`. -/
def startsWithText (zero : A) (t str : Text A) : Option Bool :=
  if t.size < str.size then some false
  else match str with
    | .chr c => if t.size < 1 then some false else (get t 0).map fun x => decide (x = c)
    | str => (substr hc t 0 str.size).bind fun s => (eq zero s str).map (·.1)

/-- 929-941 `ends_with(const string_t&)`. -/
def endsWithText (zero : A) (t str : Text A) : Option Bool :=
  if t.size < str.size then some false
  else match str with
    | .chr c => if t.size < 1 then some false else (get t (t.size - 1)).map fun x => decide (x = c)
    | str => (substr hc t (t.size - str.size) (2 ^ 64 - 1)).bind fun s => (eq zero s str).map (·.1)

/-- 942-946 `ends_with(ch, count)`: `npos` is larger than every size. -/
def endsWithRun (zero : A) (t : Text A) (ch : A) (count : Nat) : Option Bool :=
  if t.size < count then some false
  else (view zero t).map fun v =>
    match Search.baseFindLastNotOf [ch] v with
    | some k => decide (k ≤ t.size - count)
    | none => false

/-! ### Replacing -/

/-- 990-992 `replace(pos, size, str)`.  `operator+` of a temporary is `+=` (235-239). -/
def replaceAt (t : Text A) (pos size : Nat) (str : Text A) : Option (Text A) :=
  (substr hc t 0 pos).bind fun a =>
  (pushBack hc gold th a str).bind fun b =>
  (substr hc t (pos + size) (2 ^ 64 - 1)).bind fun c => pushBackMove hc gold th b.1 c

/-- 1006-1018 `replace(ch, str)`, the loop; `str` may have another owner after each round.  `replace(ch, ch2)` (993-1005) is the case of a single
character. -/
def replaceLoop (zero : A) (t : Text A) (ch : A) : Nat → Nat → Text A → Text A → Option (Text A)
  | 0, _, _, _ => none
  | fuel + 1, pos, str, aret =>
    (findFrom zero t ch pos).bind fun
      | none => (substr hc t pos (2 ^ 64 - 1)).bind fun s => pushBackMove hc gold th aret s
      | some pos2 =>
        (substr hc t pos (wsub pos2 pos)).bind fun s =>
        (pushBack hc gold th s str).bind fun s =>
        (pushBackMove hc gold th aret s.1).bind fun aret =>
        replaceLoop zero t ch fuel (pos2 + 1) s.2 aret

/-- 1006-1018 `replace(ch, str)`. -/
def replaceChar (zero : A) (t : Text A) (ch : A) (str : Text A) (fuel : Nat) : Option (Text A) :=
  replaceLoop hc gold th zero t ch fuel 0 str (.lit [])

/-- 1019-1031 `replace(str1, str2)`, the loop. -/
def replaceTextLoop (zero : A) (idx : A → Nat) (pad : List A) (t str1 : Text A) :
    Nat → Nat → Text A → Text A → Option (Text A)
  | 0, _, _, _ => none
  | fuel + 1, pos, str2, aret =>
    (findTextFrom zero idx pad t str1 pos).bind fun
      | none => (substr hc t pos (2 ^ 64 - 1)).bind fun s => pushBackMove hc gold th aret s
      | some pos2 =>
        (substr hc t pos (wsub pos2 pos)).bind fun s =>
        (pushBack hc gold th s str2).bind fun s =>
        (pushBackMove hc gold th aret s.1).bind fun aret =>
        replaceTextLoop zero idx pad t str1 fuel (pos2 + str1.size) s.2 aret

/-- 1019-1031 `replace(str1, str2)`. -/
def replaceText (zero : A) (idx : A → Nat) (pad : List A) (t str1 str2 : Text A) (fuel : Nat) :
    Option (Text A) :=
  replaceTextLoop hc gold th zero idx pad t str1 fuel 0 str2 (.lit [])

end
end ELC.Text
