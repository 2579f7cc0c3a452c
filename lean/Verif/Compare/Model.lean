/-!
Equality and three-way comparison of arrays: `F/base_defs/compare.hpp`, and `F/base_defs/min_max.hpp`.

A pointer is the list of the elements that may be read from it on.  `none` is a read outside that memory.  `eq` and
`cmp` are `==` and `<=>` of the elements, `zero` is the terminator `T{0}`; both arrays have the same element type here.
-/
namespace ELC.Compare

variable {α : Type}

/-! ### `equal` -/

section Equal
variable [DecidableEq α]

/-- compare.hpp:69-76 `equal(a, b, size)`. -/
def equalN : Nat → List α → List α → Option Bool
  | 0, _, _ => some true
  | n + 1, x :: a, y :: b => if x ≠ y then some false else equalN n a b
  | _ + 1, _, _ => none

/-- compare.hpp:86-92 `equal(a, size1, b, size2)`. -/
def equalSized (a : List α) (n1 : Nat) (b : List α) (n2 : Nat) : Option Bool :=
  if n1 = n2 then equalN n1 a b else some false

/-- compare.hpp:93-102 `equal(a, size1, b, end_by_zero)`. -/
def equalZero (zero : α) : Nat → List α → List α → Option Bool
  | 0, _, y :: _ => some (decide (y = zero))
  | 0, _, [] => none
  | n + 1, x :: a, y :: b => if x ≠ y ∨ y = zero then some false else equalZero zero n a b
  | _ + 1, _, _ => none

/-- compare.hpp:103-106 `equal(a, end_by_zero, b, size2)`. -/
def equalZeroSized (zero : α) (a b : List α) (n2 : Nat) : Option Bool := equalZero zero n2 b a

/-- compare.hpp:107-117 `equal(a, end_by_zero, b, end_by_zero)`. -/
def equalZeros (zero : α) : List α → List α → Option Bool
  | x :: a, y :: b => if x ≠ y then some false else if x = zero then some true else equalZeros zero a b
  | _, _ => none

/-- compare.hpp:118-127 `equal(a, size1, just_an_part, b, end_by_zero)`. -/
def equalPart (zero : α) : Nat → List α → List α → Option Bool
  | 0, _, _ => some true
  | n + 1, x :: a, y :: b => if x ≠ y ∨ y = zero then some false else equalPart zero n a b
  | _ + 1, _, _ => none

end Equal

/-! ### `compare` -/

/-- compare.hpp:207-214 `compare(a, b, size)`. -/
def compareN (cmp : α → α → Ordering) : Nat → List α → List α → Option Ordering
  | 0, _, _ => some .eq
  | n + 1, x :: a, y :: b => if cmp x y ≠ .eq then some (cmp x y) else compareN cmp n a b
  | _ + 1, _, _ => none

/-- compare.hpp:224-231 `compare(a, size1, b, size2)`. -/
def compareSized (cmp : α → α → Ordering) (a : List α) (n1 : Nat) (b : List α) (n2 : Nat) : Option Ordering :=
  if compare n1 n2 ≠ .eq then some (compare n1 n2) else compareN cmp n1 a b

variable [DecidableEq α]

/-- compare.hpp:232-244 `compare(a, size1, b, end_by_zero)`, from the loop on. -/
def compareSizedZeroLoop (cmp : α → α → Ordering) (zero : α) : Nat → Ordering → List α → List α → Option Ordering
  | _, _, _, [] => none
  | 0, tmp, _, y :: _ => some (if y = zero then tmp else .lt)
  | n + 1, tmp, a, y :: b =>
    if y = zero then some .gt
    else if tmp = .eq then
      match a with
      | [] => none
      | x :: a => compareSizedZeroLoop cmp zero n (cmp x y) a b
    else compareSizedZeroLoop cmp zero n tmp a.tail b

/-- compare.hpp:232-244 `compare(a, size1, b, end_by_zero)`. -/
def compareSizedZero (cmp : α → α → Ordering) (zero : α) (a : List α) (n1 : Nat) (b : List α) : Option Ordering :=
  compareSizedZeroLoop cmp zero n1 .eq a b

/-- compare.hpp:245-257 `compare(a, end_by_zero, b, size2)`, from the loop on.  The last line tests `*b`. -/
def compareZeroSizedLoop (cmp : α → α → Ordering) (zero : α) : Nat → Ordering → List α → List α → Option Ordering
  | 0, _, _, [] => none
  | 0, tmp, _, y :: _ => some (if y = zero then tmp else .lt)
  | _ + 1, _, [], _ => none
  | n + 1, tmp, x :: a, b =>
    if x = zero then some .lt
    else if tmp = .eq then
      match b with
      | [] => none
      | y :: b => compareZeroSizedLoop cmp zero n (cmp x y) a b
    else compareZeroSizedLoop cmp zero n tmp a b.tail

/-- compare.hpp:245-257 `compare(a, end_by_zero, b, size2)`. -/
def compareZeroSized (cmp : α → α → Ordering) (zero : α) (a b : List α) (n2 : Nat) : Option Ordering :=
  compareZeroSizedLoop cmp zero n2 .eq a b

/-- compare.hpp:258-269 `compare(a, end_by_zero, b, end_by_zero)`, from the loop on. -/
def compareZerosLoop (cmp : α → α → Ordering) (zero : α) : Ordering → List α → List α → Option Ordering
  | _, [], _ => none
  | tmp, x :: a, b =>
    if x = zero then
      match b with
      | [] => none
      | y :: _ => some (if y = zero then tmp else .lt)
    else if tmp = .eq then
      match b with
      | [] => none
      | y :: b => compareZerosLoop cmp zero (cmp x y) a b
    else compareZerosLoop cmp zero tmp a b.tail

/-- compare.hpp:258-269 `compare(a, end_by_zero, b, end_by_zero)`. -/
def compareZeros (cmp : α → α → Ordering) (zero : α) (a b : List α) : Option Ordering :=
  compareZerosLoop cmp zero .eq a b

/-- compare.hpp:270-282 `compare(a, size1, just_an_part, b, end_by_zero)`, from the loop on. -/
def comparePartLoop (cmp : α → α → Ordering) (zero : α) : Nat → Ordering → List α → List α → Option Ordering
  | 0, tmp, _, _ => some tmp
  | _ + 1, _, _, [] => none
  | n + 1, tmp, a, y :: b =>
    if y = zero then some .gt
    else if tmp = .eq then
      match a with
      | [] => none
      | x :: a => comparePartLoop cmp zero n (cmp x y) a b
    else comparePartLoop cmp zero n tmp a.tail b

/-- compare.hpp:270-282 `compare(a, size1, just_an_part, b, end_by_zero)`. -/
def comparePart (cmp : α → α → Ordering) (zero : α) (a : List α) (n1 : Nat) (b : List α) : Option Ordering :=
  comparePartLoop cmp zero n1 .eq a b

/-! ### `compare.lexicographical` -/

omit [DecidableEq α] in
/-- compare.hpp:283-290 `compare.lexicographical(a, size1, b, size2)`. -/
def lexSized (cmp : α → α → Ordering) (a : List α) (n1 : Nat) (b : List α) (n2 : Nat) : Option Ordering :=
  match compareN cmp (min n1 n2) a b with
  | none => none
  | some tmp => if tmp ≠ .eq then some tmp else some (compare n1 n2)

/-- compare.hpp:295-307 `compare.lexicographical(a, size1, b, end_by_zero)`. -/
def lexSizedZero (cmp : α → α → Ordering) (zero : α) : Nat → List α → List α → Option Ordering
  | _, _, [] => none
  | 0, _, y :: _ => some (if y = zero then .eq else .lt)
  | n + 1, a, y :: b =>
    if y = zero then some .gt
    else
      match a with
      | [] => none
      | x :: a => if cmp x y ≠ .eq then some (cmp x y) else lexSizedZero cmp zero n a b

/-- compare.hpp:308-320 `compare.lexicographical(a, end_by_zero, b, size2)`.  The last line tests `*b`. -/
def lexZeroSized (cmp : α → α → Ordering) (zero : α) : Nat → List α → List α → Option Ordering
  | 0, _, [] => none
  | 0, _, y :: _ => some (if y = zero then .eq else .lt)
  | _ + 1, [], _ => none
  | n + 1, x :: a, b =>
    if x = zero then some .lt
    else
      match b with
      | [] => none
      | y :: b => if cmp x y ≠ .eq then some (cmp x y) else lexZeroSized cmp zero n a b

/-- compare.hpp:321-332 `compare.lexicographical(a, end_by_zero, b, end_by_zero)`. -/
def lexZeros (cmp : α → α → Ordering) (zero : α) : List α → List α → Option Ordering
  | [], _ => none
  | _ :: _, [] => none
  | x :: a, y :: b =>
    if x = zero then some (if y = zero then .eq else .lt)
    else if cmp x y ≠ .eq then some (cmp x y) else lexZeros cmp zero a b

/-- compare.hpp:333-344 `compare.lexicographical(a, size1, just_an_part, b, end_by_zero)`. -/
def lexPart (cmp : α → α → Ordering) (zero : α) : Nat → List α → List α → Option Ordering
  | 0, _, _ => some .eq
  | _ + 1, _, [] => none
  | n + 1, a, y :: b =>
    if y = zero then some .gt
    else
      match a with
      | [] => none
      | x :: a => if cmp x y ≠ .eq then some (cmp x y) else lexPart cmp zero n a b

/-- compare.hpp:346-369 `compare.reverse`; the result type of `<=>` with `unordered` as `none`. -/
def reverse : Option Ordering → Option Ordering
  | some .gt => some .lt
  | some .lt => some .gt
  | o => o

/-! ### `max` and `min` -/

/-- min_max.hpp:98-102 `max::base_call(a, b)`. -/
def max2 (cmp : α → α → Ordering) (a b : α) : α := if cmp a b = .lt then b else a

/-- min_max.hpp:103-106 `max(a, b, c...)`. -/
def maxOf (cmp : α → α → Ordering) : α → List α → α
  | a, [] => a
  | a, b :: rest => max2 cmp a (maxOf cmp b rest)

/-- min_max.hpp:113-122 `max({...})`, from the loop on. -/
def maxList (cmp : α → α → Ordering) : α → List α → α
  | m, [] => m
  | m, i :: l => maxList cmp (if cmp m i = .lt then i else m) l

/-- min_max.hpp:207-211 `min::base_call(a, b)`. -/
def min2 (cmp : α → α → Ordering) (a b : α) : α := if cmp a b = .lt then a else b

/-- min_max.hpp:212-215 `min(a, b, c...)`. -/
def minOf (cmp : α → α → Ordering) : α → List α → α
  | a, [] => a
  | a, b :: rest => min2 cmp a (minOf cmp b rest)

/-- min_max.hpp:222-231 `min({...})`, from the loop on. -/
def minList (cmp : α → α → Ordering) : α → List α → α
  | m, [] => m
  | m, i :: l => minList cmp (if cmp m i = .gt then i else m) l

end ELC.Compare
