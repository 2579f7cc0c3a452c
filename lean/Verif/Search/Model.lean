/-!
Searching in arrays: `F/base_defs/range.hpp`.  An array is the list of its elements; a pointer into it is an index.
The outer `Option` is `none` when the code reads outside the memory it may read (or ends without a `return`); the inner
one is `none` for `nullptr`.
-/
namespace ELC.Search

variable {α : Type} [DecidableEq α]

/-! ### `match_pattern` -/

/-- range.hpp:98-99, the second loop of `match_pattern::build_table`; `idx` is `get_index_of`, any function of the
element. -/
def buildLoop (idx : α → Nat) (m : Nat) : Nat → List α → (Nat → Nat) → (Nat → Nat)
  | _, [], t => t
  | i, c :: cs, t => buildLoop idx m (i + 1) cs (fun j => if j = idx c then m - i else t j)

/-- range.hpp:92-100 `match_pattern::build_table`.  (For an empty pattern the table stays zero; it is never read.) -/
def buildTable (idx : α → Nat) (p : List α) : Nat → Nat :=
  if p.length = 0 then fun _ => 0 else buildLoop idx p.length 0 p (fun _ => p.length + 1)

/-- range.hpp:110-114, the comparison from the last element of the pattern on; `j + 1` elements are left. -/
def cmpBack (p mem : List α) (off : Nat) : Nat → Option Bool
  | 0 => none
  | j + 1 =>
    match p[j]?, mem[off + j]? with
    | some a, some b => if a = b then (if j = 0 then some true else cmpBack p mem off j) else some false
    | _, _ => none

/-- range.hpp:108-118, the loop of `match_pattern::match` on the first `n` elements of the memory `mem`.  The last
`none` would be a loop without end. -/
def matchLoop (idx : α → Nat) (t : Nat → Nat) (p mem : List α) (n off : Nat) : Option (Option Nat) :=
  match cmpBack p mem off p.length with
  | none => none
  | some true => some (some off)
  | some false =>
    if off + p.length ≥ n then some none
    else
      match mem[off + p.length]? with
      | none => none
      | some c => if _h : 0 < t (idx c) ∧ off < n then matchLoop idx t p mem n (off + t (idx c)) else none
termination_by n - off
decreasing_by omega

/-- range.hpp:104-119 `match_pattern::match`; `mem` is the range, of length `n`, with the memory behind it. -/
def matchPattern (idx : α → Nat) (p mem : List α) (n : Nat) : Option (Option Nat) :=
  matchLoop idx (buildTable idx p) p mem n 0

/-! ### `reverse_match_pattern` -/

/-- range.hpp:140-141, the second loop of `reverse_match_pattern::build_table`, over all but the last element. -/
def revBuildLoop (idx : α → Nat) : Nat → List α → (Nat → Nat) → (Nat → Nat)
  | _, [], t => t
  | _, [_], t => t
  | i, c :: d :: cs, t => revBuildLoop idx (i + 1) (d :: cs) (fun j => if j = idx c then i else t j)

/-- range.hpp:134-142 `reverse_match_pattern::build_table`. -/
def revBuildTable (idx : α → Nat) (p : List α) : Nat → Nat :=
  if p.length = 0 then fun _ => 0 else revBuildLoop idx 0 p (fun _ => p.length + 1)

/-- range.hpp:152-156, the comparison from the first element of the pattern on, at `off` elements from the end of the
range `r`; the pattern still to be compared is `p`. -/
def cmpFwd (r : List α) (off : Nat) : List α → Option Bool
  | [] => none
  | a :: p =>
    if off + p.length + 1 ≤ r.length then
      match r[r.length - (off + p.length + 1)]? with
      | some b => if a = b then (if p.length = 0 then some true else cmpFwd r off p) else some false
      | none => none
    else none

/-- range.hpp:150-161, the loop of `reverse_match_pattern::match`. -/
def revMatchLoop (idx : α → Nat) (t : Nat → Nat) (p r : List α) (off : Nat) : Option (Option Nat) :=
  match cmpFwd r off p with
  | none => none
  | some true => some (some (r.length - (off + p.length)))
  | some false =>
    if off + p.length ≥ r.length then some none
    else
      match r[r.length - (off + p.length + 1)]? with
      | none => none
      | some c => if _h : off < r.length then revMatchLoop idx t p r (off + t (idx c) + 1) else none
termination_by r.length - off
decreasing_by omega

/-- range.hpp:146-162 `reverse_match_pattern::match`. -/
def revMatch (idx : α → Nat) (p r : List α) : Option (Option Nat) :=
  revMatchLoop idx (revBuildTable idx p) p r 0

/-! ### single elements and sets of elements -/

/-- range.hpp:165-171 `in_range(element, array)` and the loops of the other forward searches: the first element
with `f`. -/
def findFwd (f : α → Bool) : List α → Nat → Option Nat
  | [], _ => none
  | x :: xs, i => if f x then some i else findFwd f xs (i + 1)

/-- range.hpp:183-189 `in_range_but_reverse(element, array)` and the loops of the other backward searches. -/
def findBack (f : α → Bool) (r : List α) : Option Nat :=
  (findFwd f r.reverse 0).map fun i => r.length - 1 - i

/-- range.hpp:165-171 `in_range(element, array)`. -/
def inRange (x : α) (r : List α) : Option Nat := findFwd (fun i => i == x) r 0

/-- range.hpp:183-189 `in_range_but_reverse(element, array)`. -/
def inRangeReverse (x : α) (r : List α) : Option Nat := findBack (fun i => i == x) r

/-! The bitmark versions are for integers, given by their unsigned value; `wide` is the `if constexpr` condition that
the type has more than 256 values. -/

/-- data.hpp:35 `number_of_possible_values_per<T> > number_of_possible_values_per<unsigned char>` for a type of `w` bits:
the number of values is computed in 64 bits. -/
def isWide (w : Nat) : Bool := decide (2 ^ w % 2 ^ 64 > 256)

/-- range.hpp:242-255 `bitmark_for_finds::mark`. -/
def mark (wide : Bool) : List Nat → (Nat → Bool) → Option (Nat → Bool)
  | [], t => some t
  | c :: cs, t => if wide && decide (256 ≤ c) then none else mark wide cs (fun j => if j = c % 256 then true else t j)

/-- range.hpp:256-261 `bitmark_for_finds::operator[]`. -/
def marked (wide : Bool) (t : Nat → Bool) (c : Nat) : Bool :=
  if wide && decide (256 ≤ c) then false else t (c % 256)

/-- range.hpp:265-292 `find_first_of` for integers. -/
def findFirstOf (wide : Bool) (p r : List Nat) : Option (Option Nat) :=
  match mark wide p (fun _ => false) with
  | some t => some (findFwd (marked wide t) r 0)
  | none => some (findFwd (fun c => (inRange c p).isSome) r 0)

/-- range.hpp:304-332 `find_last_of` for integers.  `find_last_of_bitmark` has no `return` after its loop. -/
def findLastOf (wide : Bool) (p r : List Nat) : Option (Option Nat) :=
  match mark wide p (fun _ => false) with
  | some t => (findBack (marked wide t) r).map some
  | none => some (findBack (fun c => (inRange c p).isSome) r)

/-- range.hpp:344-372 `find_first_not_of` for integers. -/
def findFirstNotOf (wide : Bool) (p r : List Nat) : Option (Option Nat) :=
  match mark wide p (fun _ => false) with
  | some t => some (findFwd (fun c => !marked wide t c) r 0)
  | none => some (findFwd (fun c => !(inRange c p).isSome) r 0)

/-- range.hpp:384-402 and 456-466 `find_last_not_of` for integers. -/
def findLastNotOf (wide : Bool) (p r : List Nat) : Option (Option Nat) :=
  match mark wide p (fun _ => false) with
  | some t => some (findBack (fun c => !marked wide t c) r)
  | none => some (findBack (fun c => !(inRange c p).isSome) r)

/-- range.hpp:284-292, 324-332, 364-372 and 458-466 for other element types: the plain versions. -/
def baseFindFirstOf (p r : List α) : Option Nat := findFwd (fun c => (inRange c p).isSome) r 0
/-- range.hpp:315-321 `base_find_last_of`. -/
def baseFindLastOf (p r : List α) : Option Nat := findBack (fun c => (inRange c p).isSome) r
/-- range.hpp:355-361 `base_find_first_not_of`. -/
def baseFindFirstNotOf (p r : List α) : Option Nat := findFwd (fun c => !(inRange c p).isSome) r 0
/-- range.hpp:395-401 `base_find_last_not_of`. -/
def baseFindLastNotOf (p r : List α) : Option Nat := findBack (fun c => !(inRange c p).isSome) r

/-! ### `bitmark_for_quick_unindex` -/

/-- range.hpp:417-446 `bitmark_for_quick_unindex::mark`; `none` in the table is `npos`.  The result `none` is
`false`. -/
def unindexMark (wide : Bool) : Nat → List Nat → (Nat → Option Nat) → Option (Nat → Option Nat)
  | _, [], t => some t
  | i, c :: cs, t =>
    if wide && decide (256 ≤ c) then none
    else if (t (c % 256)).isSome then none
    else unindexMark wide (i + 1) cs (fun j => if j = c % 256 then some i else t j)

/-- range.hpp:447-452 `bitmark_for_quick_unindex::operator[]`. -/
def unindex (wide : Bool) (t : Nat → Option Nat) (c : Nat) : Option Nat :=
  if wide && decide (256 ≤ c) then none else t (c % 256)

end ELC.Search
