/-
Rotation of machine words.  Models F/base_defs/bit.hpp lines 43-132.
-/
namespace ELC

/-- F/base_defs/bit.hpp:43-62 `rotr_nomod` with an unsigned rotation count
(the signed branch only forwards to this one).  In C++ the shift counts have to be smaller than the
width; here that is the caller's `r < w`, which `rotr` and `rot_iterator` establish. -/
def rotrNomod {w : Nat} (v : BitVec w) (r : Nat) : BitVec w :=
  if r ≠ 0 then (v >>> r) ||| (v <<< (w - r)) else v

/-- F/base_defs/bit.hpp:65-82 `rotl_nomod` with an unsigned rotation count. -/
def rotlNomod {w : Nat} (v : BitVec w) (r : Nat) : BitVec w :=
  if r ≠ 0 then (v <<< r) ||| (v >>> (w - r)) else v

/-- F/base_defs/bit.hpp:86-91 `rotr`: reduces the count modulo the width. -/
def rotr {w : Nat} (v : BitVec w) (R : Nat) : BitVec w := rotrNomod v (R % w)

/-- F/base_defs/bit.hpp:94-99 `rotl`: reduces the count modulo the width. -/
def rotl {w : Nat} (v : BitVec w) (R : Nat) : BitVec w := rotlNomod v (R % w)

/-- F/base_defs/bit.hpp:105 constructor of `rot_iterator<T>` (`w` = digits of T). -/
def rotIterInit (w offset : Nat) : Nat := offset % w

/-- F/base_defs/bit.hpp:106-111 `rot_iterator::operator++`. -/
def rotIterInc (w off : Nat) : Nat :=
  let off := off + 1
  if off == w then 0 else off

/-- F/base_defs/bit.hpp:112-117 `rot_iterator::operator--`. -/
def rotIterDec (w off : Nat) : Nat :=
  (if off == 0 then w else off) - 1

end ELC
