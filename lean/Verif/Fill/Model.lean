/-
Model of filling memory with copies of one value: `F/base_defs/memory/lifetime/defs.hpp` (`lifetime` below)
`super_speed_trivial_copy_from_one` and the functions that call it, and `F/base_defs/zero.hpp` `is_all_byte_zero`.

Memory is the list of the bytes from the address filled on, a value of a trivially copyable type the list of the bytes it
is stored in, the lowest address first (little endian).  `memset`, `wmemset` and `fill_n` are what the C and C++ standards
say.  `sizeof(wchar_t)` is 4 and `sizeof(max_align_t)` 32, as with GCC on x86-64 Linux.  A type whose values cannot be
converted to `unsigned char` or `wchar_t` is rejected by the compiler when its size is 1 or 4, and is not covered for those
sizes.
-/
namespace ELC.Fill

/-- A trivially copyable type: its size, and what `(unsigned char)value` or `(wchar_t)value` of the value stored in some bytes
is, as an unsigned number (`none`: the conversion is undefined).  The conversion matters for sizes 1 and 4 only. -/
structure Ty where
  size : Nat
  conv : List Nat → Option Nat

/-- The number stored in some bytes, the lowest first. -/
def number : List Nat → Nat
  | [] => 0
  | b :: l => b + 256 * number l

/-- The `n` bytes a number is stored in, the lowest first. -/
def bytes : Nat → Nat → List Nat
  | 0, _ => []
  | n+1, c => c % 256 :: bytes n (c / 256)

/-- An integer, character or enumeration type of `n` bytes, or `bool`: converting to the integer type of that size keeps the
bits. -/
def integer (n : Nat) : Ty := ⟨n, fun l => some (number l)⟩

/-- Conversion of a `float` with the bits `d` to a signed 32-bit integer: the value cut off towards zero; undefined if that
is no such integer, and for NaN and the infinities. -/
def floatToInt (d : Nat) : Option Nat :=
  let neg := d / 2 ^ 31
  let e := d / 2 ^ 23 % 256
  let m := d % 2 ^ 23
  if e = 255 then none
  else
    let a := if e = 0 then 0 else if e < 150 then (2 ^ 23 + m) / 2 ^ (150 - e) else (2 ^ 23 + m) * 2 ^ (e - 150)
    if neg = 0 then (if a < 2 ^ 31 then some a else none)
    else if a ≤ 2 ^ 31 then some ((2 ^ 32 - a) % 2 ^ 32)
    else none

/-- `float`, where `wchar_t` is a signed 32-bit integer. -/
def float32 : Ty := ⟨4, fun l => floatToInt (number l)⟩

/-- zero.hpp:46-54 `is_all_byte_zero`: the loop over the bytes. -/
def isAllByteZero : List Nat → Bool
  | [] => true
  | b :: l => if b ≠ 0 then false else isAllByteZero l

/-- `memset(to,c,n)`. -/
def memset (c n : Nat) (mem : List Nat) : List Nat := List.replicate n c ++ mem.drop n

/-- `wmemset(to,c,n)`: `n` times the four bytes of `c`. -/
def wmemset (c : Nat) : Nat → List Nat → List Nat
  | 0, mem => mem
  | n+1, mem => bytes 4 c ++ wmemset c n (mem.drop 4)

/-- `fill_n(to,n,value)`: one element after the other. -/
def fillN (T : Ty) (v : List Nat) : Nat → List Nat → List Nat
  | 0, mem => mem
  | n+1, mem => v ++ fillN T v n (mem.drop T.size)

/-- lifetime:89-101 `super_speed_trivial_copy_from_one(to,value,size)`. -/
def fill (T : Ty) (v : List Nat) (n : Nat) (mem : List Nat) : Option (List Nat) :=
  if T.size = 1 then (T.conv v).map fun c => memset (c % 256) n mem
  else if T.size = 4 then (T.conv v).map fun c => wmemset c n mem
  else if isAllByteZero v then some (memset 0 (n * T.size) mem)
  else some (fillN T v n mem)

/-- lifetime:102-112 `super_speed_trivial_copy_from_one(to,value)`. -/
def fillOne (T : Ty) (v : List Nat) (mem : List Nat) : List Nat :=
  if 32 ≤ T.size then
    if isAllByteZero v then memset 0 T.size mem else v ++ mem.drop T.size
  else v ++ mem.drop T.size

/-- Storing a value at the element with the number `i`. -/
def store (T : Ty) (v : List Nat) (i : Nat) (mem : List Nat) : List Nat :=
  mem.take (i * T.size) ++ v ++ mem.drop ((i + 1) * T.size)

/-- lifetime:144-147 `array_construct_t::base_call`: the last element is constructed first. -/
def constructLoop (T : Ty) (v : List Nat) : Nat → List Nat → List Nat
  | 0, mem => mem
  | n+1, mem => constructLoop T v n (store T v n mem)

/-- How the value is handed over. -/
inductive Arg where
  /-- by a constant reference -/
  | const
  /-- a variable that can be changed, or a temporary -/
  | other
deriving DecidableEq, Repr

/-- lifetime:148-162 `construct<T>[to][n](v)`: the overload for `const T&` is chosen for constant references only, everything
else fits the template better.  `get<T>[n](v)` (F/base/memory/get/defs.hpp:518-524) hands its argument on, and
`array_t(note::size(n),v)` (F/base/container/array/defs.hpp:54-56) a constant reference. -/
def constructArray (T : Ty) (a : Arg) (v : List Nat) (n : Nat) (mem : List Nat) : Option (List Nat) :=
  match a with
  | .const => fill T v n mem
  | .other => some (constructLoop T v n mem)

/-- lifetime:400-411 `copy_construct[n](to,v)` and 616-624 `copy_assign[n](to,v)`. -/
def copyArray (T : Ty) (v : List Nat) (n : Nat) (mem : List Nat) : Option (List Nat) := fill T v n mem

end ELC.Fill
