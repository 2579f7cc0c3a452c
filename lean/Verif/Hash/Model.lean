import Verif.Bits.Rot
/-
Array hashing.  Models F/base_defs/hash.hpp lines 170-272.
`hash_base_t` is a 64 bit word; `size_t` has 64 bits.
The hash of one element is an arbitrary function `h`.
-/
namespace ELC.Hash

/-- `hash_base_t`, a 64 bit unsigned integer (F/base_defs/hash.hpp `hash_base_t`). -/
abbrev Word := BitVec 64

/-- F/base_defs/hash.hpp:118-120 `hash(nothing)`: the zero hash. -/
def hashNothing : Word := 0#64

/-- Body of the loop F/base_defs/hash.hpp:182-185
(`aret ^= rotl(hash(a[size]),rotl_offset); rotl_offset--;`). -/
def calcStep {α : Type} (h : α → Word) (s : Word × Nat) (x : α) : Word × Nat :=
  (s.1 ^^^ rotlNomod (h x) s.2, rotIterDec 64 s.2)

/-- F/base_defs/hash.hpp:179-187 `with_calculated_before`.  The array `a[0..size)` is a list;
the loop `while(size--)` visits it from the last element to the first.
`before_size+size` wraps modulo `2^64` as `size_t` does. -/
def withCalculatedBefore {α : Type} (h : α → Word) (before : Word) (beforeSize : Nat)
    (a : List α) : Word :=
  (a.reverse.foldl (calcStep h)
    (before, rotIterInit 64 ((beforeSize + a.length) % 2 ^ 64))).1

/-- F/base_defs/hash.hpp:246-248 `hash(const T*,size_t)`. -/
def hashArray {α : Type} (h : α → Word) (a : List α) : Word :=
  withCalculatedBefore h hashNothing 0 a

/-- F/base_defs/hash.hpp:260-264 `merge_array_hash_results`. -/
def mergeArrayHashResults (before : Word) (beforeSize : Nat) (after : Word)
    (_afterSize : Nat) : Word :=
  before ^^^ rotl after beforeSize

/-- `::std::popcount` on a 64 bit word: the number of set bits. -/
def popcount (v : Word) : Nat := (List.range 64).countP (fun i => v.getLsbD i)

/-- The loop F/base_defs/hash.hpp:220-223 of `repeat_times`. -/
def repeatLoop (value : Word) : Nat → Nat → Word → Word
  | 0, _, aret => aret
  | size + 1, off, aret => repeatLoop value size (rotIterDec 64 off) (aret ^^^ rotlNomod value off)

/-- F/base_defs/hash.hpp:196-225 `repeat_times(hash_value_t,size_t)`.
`bit_range_max` = 64, `BIT_POSSIBILITY` = 2, so `bitnumof_void` = 128. -/
def repeatTimes (value : Word) (size : Nat) : Word :=
  let size := size % (64 * 2)
  if value == 0#64 || size == 0 then 0#64
  else
    let aret : Word := if size ≥ 64 then (if popcount value % 2 != 0 then BitVec.allOnes 64 else 0#64) else 0#64
    let size := if size ≥ 64 then size - 64 else size
    if size == 0 then aret
    else repeatLoop value size (rotIterInit 64 size) aret

end ELC.Hash
