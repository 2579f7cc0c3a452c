import Verif.Compare.Model
import Verif.Search.Model

/-
Views of arrays and strings, and literals.  Models
* F/base_defs/array_like.hpp:76-172 (`array_like_view_t`, `array_end_by_zero_t`),
* F/base_defs/string_view.hpp:124-164 (`substr`, `starts_with`),
* F/base_defs/constexpr_str.hpp:65-86, 133-207 (`constexpr_str_t` and the searches with it).
Memory is one block `mem`; a pointer is a position in it.  `none` is an access outside the block.
-/
namespace ELC.View

/-- array_like.hpp:103-104: `_begin` and `_size`. -/
structure View where
  begin : Nat
  size : Nat
deriving DecidableEq, Repr

/-- `size_t` arithmetic. -/
def word (a b : Nat) : Nat := (a + 2 ^ 64 - b) % 2 ^ 64

/-- array_like.hpp:138-139 `operator[]`. -/
def at? (mem : List Nat) (v : View) (pos : Nat) : Option Nat := mem[v.begin + pos]?

/-- array_like.hpp:131-132 `front`. -/
def front (mem : List Nat) (v : View) : Option Nat := mem[v.begin]?

/-- array_like.hpp:133-134 `back`: `_begin[size()-1]`, the index a `size_t`. -/
def back (mem : List Nat) (v : View) : Option Nat := mem[v.begin + word v.size 1]?

/-- array_like.hpp:120-126: a loop from `begin()` to `end()`; `n` elements are left. -/
def forward (mem : List Nat) : Nat → Nat → Option (List Nat)
  | _, 0 => some []
  | p, n + 1 => do
    let x ← mem[p]?
    let xs ← forward mem (p + 1) n
    return x :: xs

/-- array_like.hpp:80-101, 128-129: a loop with `reverse_iterator` from `rbegin()` to `rend()`.  Pointers
are integers here, so that `rend()` is -1 for a view at the start of the block; `n` bounds the turns. -/
def backward (mem : List Nat) (rend : Int) : Int → Nat → Option (List Nat)
  | p, 0 => if p = rend then some [] else none
  | p, n + 1 =>
    if p = rend then some []
    else if p < 0 then none
    else do
      let x ← mem[p.toNat]?
      let xs ← backward mem rend (p - 1) n
      return x :: xs

/-- `for(i=rbegin();i!=rend();++i)` -/
def backwardAll (mem : List Nat) (v : View) : Option (List Nat) :=
  backward mem ((v.begin : Int) - 1) ((v.begin : Int) + v.size - 1) (mem.length + 1)

/-- array_like.hpp:148-152 `subview(pos, end_pos)`. -/
def subview (v : View) (pos endPos : Nat) : View :=
  let endPos := if endPos > v.size then v.size else endPos
  let pos := if pos > endPos then endPos else pos
  ⟨v.begin + pos, endPos - pos⟩

/-- array_like.hpp:153-156 `subview(pos)`. -/
def subviewFrom (v : View) (pos : Nat) : View :=
  let pos := if pos > v.size then v.size else pos
  ⟨v.begin + pos, v.size - pos⟩

/-- array_like.hpp:166-169 `get_length_of`: the length of an array that ends with zero; at most `n`
elements can be read. -/
def lengthOf (mem : List Nat) (p : Nat) : Nat → Option Nat
  | 0 => none
  | n + 1 => do
    let x ← mem[p]?
    if x ≠ 0 then return (← lengthOf mem (p + 1) n) + 1 else return 0

/-- string_view.hpp:124-126 `substr(pos, len)`. -/
def substr (v : View) (pos len : Nat) : View := ⟨v.begin + pos, len⟩

/-- string_view.hpp:127-129 `substr(pos)`. -/
def substrFrom (v : View) (pos : Nat) : View := ⟨v.begin + pos, word v.size pos⟩

/-- string_view.hpp:130-132 `substr(pos, end)`, the end a pointer. -/
def substrTo (v : View) (pos e : Nat) : View := ⟨v.begin + pos, word e v.begin⟩

/-- string_view.hpp:133-135 `substr(begin, len)`, the beginning a pointer. -/
def substrAt (_v : View) (b len : Nat) : View := ⟨b, len⟩

/-- string_view.hpp:136-138 `substr(begin)`, the beginning a pointer. -/
def substrAtFrom (v : View) (b : Nat) : View := ⟨b, word (v.begin + v.size) b⟩

/-- string_view.hpp:139-141 `substr(begin, end)` with two pointers. -/
def substrBetween (_v : View) (b e : Nat) : View := ⟨b, word e b⟩

/-- string_view.hpp:143-145 `starts_with(ch)`. -/
def startsWithChar (mem : List Nat) (v : View) (ch : Nat) : Option Bool :=
  if v.size = 0 then some false else do return (← mem[v.begin]?) == ch

/-- string_view.hpp:146-150 `starts_with(str)` of another view. -/
def startsWithView (mem : List Nat) (v s : View) : Option Bool :=
  if s.size > v.size then some false
  else Compare.equalN s.size (mem.drop v.begin) (mem.drop s.begin)

/-- string_view.hpp:151-160 `starts_with(str)` of an array that ends with zero; `i` as in the code. -/
def startsWithZero (mem : List Nat) (v : View) (str i : Nat) : Option Bool :=
  if i < v.size then do
    let c ← mem[str + i]?
    if c ≠ 0 then
      let x ← mem[v.begin + i]?
      if x ≠ c then return false else startsWithZero mem v str (i + 1)
    else return true
  else do return (← mem[str + i]?) == 0
termination_by v.size - i

/-! ### Literals -/

/-- constexpr_str.hpp:65-76 `constexpr_str_t` of characters of `w` bits: its text and the tables made for
it, where making them succeeded. -/
structure Literal where
  text : List Nat
  finds : Option (Nat → Bool)
  unindex : Option (Nat → Option Nat)

/-- constexpr_str.hpp:77-85, the constructor. -/
def Literal.make (w : Nat) (text : List Nat) : Literal :=
  let finds := Search.mark (Search.isWide w) text (fun _ => false)
  ⟨text, finds,
    if finds.isSome then Search.unindexMark (Search.isWide w) 0 text (fun _ => none) else none⟩

/-- constexpr_str.hpp:173-189 `in_range` and `in_range_size_t` of a character in a literal. -/
def Literal.inRange (w : Nat) (l : Literal) (x : Nat) : Option Nat :=
  match l.unindex with
  | some t => Search.unindex (Search.isWide w) t x
  | none => Search.inRange x l.text

/-- constexpr_str.hpp:191-207 `in_range_but_reverse` and `in_range_but_reverse_size_t`. -/
def Literal.inRangeReverse (w : Nat) (l : Literal) (x : Nat) : Option Nat :=
  match l.unindex with
  | some t => Search.unindex (Search.isWide w) t x
  | none => Search.inRangeReverse x l.text

/-- constexpr_str.hpp:135-141 `find_first_of` of the characters of a literal. -/
def Literal.findFirstOf (w : Nat) (l : Literal) (r : List Nat) : Option (Option Nat) :=
  match l.finds with
  | some t => some (Search.findFwd (Search.marked (Search.isWide w) t) r 0)
  | none => Search.findFirstOf (Search.isWide w) l.text r

/-- constexpr_str.hpp:144-150 `find_last_of`; `find_last_of_bitmark` has no `return` after its loop. -/
def Literal.findLastOf (w : Nat) (l : Literal) (r : List Nat) : Option (Option Nat) :=
  match l.finds with
  | some t => (Search.findBack (Search.marked (Search.isWide w) t) r).map some
  | none => Search.findLastOf (Search.isWide w) l.text r

/-- constexpr_str.hpp:153-159 `find_first_not_of`. -/
def Literal.findFirstNotOf (w : Nat) (l : Literal) (r : List Nat) : Option (Option Nat) :=
  match l.finds with
  | some t => some (Search.findFwd (fun c => !Search.marked (Search.isWide w) t c) r 0)
  | none => Search.findFirstNotOf (Search.isWide w) l.text r

/-- constexpr_str.hpp:162-168 `find_last_not_of`. -/
def Literal.findLastNotOf (w : Nat) (l : Literal) (r : List Nat) : Option (Option Nat) :=
  match l.finds with
  | some t => some (Search.findBack (fun c => !Search.marked (Search.isWide w) t c) r)
  | none => Search.findLastNotOf (Search.isWide w) l.text r

end ELC.View
