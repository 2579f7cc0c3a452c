import Verif.Bits.Rot

/-!
Bit counting and bit sets.  Models F/base_defs/bit.hpp:159-254 and F/base_defs/bitset.hpp.

A machine word of type `T` with `sizeof(T) = 2^k` bytes is a natural number below `2^(8*2^k)`; the
level `k` plays the role of the type (`half_t` is level `k-1`).
-/
namespace ELC.Bits

/-- Number of bits of a word of level `k` (`bitnum_of(T)` for `sizeof(T) = 2^k`). -/
def bitsOf (k : Nat) : Nat := 8 * 2 ^ k

/-- F/base_defs/bit.hpp:170-172 `get_bitnum` for one byte: `v?get_bitnum(T(v>>1))+1:0`. -/
def getBitnum8 (v : Nat) : Nat :=
  if h : v ≠ 0 then getBitnum8 (v >>> 1) + 1 else 0
termination_by v
decreasing_by simp [Nat.shiftRight_eq_div_pow]; omega

/-- F/base_defs/bit.hpp:159-173 `get_bitnum`, by halving the type. -/
def getBitnum : Nat → Nat → Nat
  | 0, v => getBitnum8 v
  | k+1, v =>
    let high := (v >>> bitsOf k) % 2 ^ bitsOf k
    if high ≠ 0 then bitsOf k + getBitnum k high else getBitnum k (v % 2 ^ bitsOf k)

/-- F/base_defs/bit.hpp:180-193 `countl_zero`. -/
def countlZero : Nat → Nat → Nat
  | 0, v => 8 - getBitnum8 v
  | k+1, v =>
    let high := (v >>> bitsOf k) % 2 ^ bitsOf k
    if high ≠ 0 then countlZero k high else bitsOf k + countlZero k (v % 2 ^ bitsOf k)

/-- F/base_defs/bit.hpp:206-208 `countr_one` for one byte: `v&1?countr_one(T(v>>1))+1:0`. -/
def countrOne8 (v : Nat) : Nat :=
  if h : v % 2 = 1 then countrOne8 (v >>> 1) + 1 else 0
termination_by v
decreasing_by simp [Nat.shiftRight_eq_div_pow]; omega

/-- F/base_defs/bit.hpp:196-209 `countr_one`. -/
def countrOne : Nat → Nat → Nat
  | 0, v => countrOne8 v
  | k+1, v =>
    let low := v % 2 ^ bitsOf k
    if low = 2 ^ bitsOf k - 1 then bitsOf k + countrOne k ((v >>> bitsOf k) % 2 ^ bitsOf k)
    else countrOne k low

/-- F/base_defs/bit.hpp:222-227 `countl_one` for one byte:
`v&first_bit?countl_one(T(v<<1))+1:0` with `first_bit = 128`. -/
def countlOne8 (v : Nat) : Nat :=
  if h : v.testBit 7 then countlOne8 ((v <<< 1) % 256) + 1 else 0
termination_by v
decreasing_by
  simp [Nat.testBit, Nat.shiftRight_eq_div_pow, Nat.shiftLeft_eq] at *; omega

/-- F/base_defs/bit.hpp:212-228 `countl_one`. -/
def countlOne : Nat → Nat → Nat
  | 0, v => countlOne8 v
  | k+1, v =>
    let high := (v >>> bitsOf k) % 2 ^ bitsOf k
    if high = 2 ^ bitsOf k - 1 then bitsOf k + countlOne k (v % 2 ^ bitsOf k)
    else countlOne k high

/-- F/base_defs/bit.hpp:231-244 `countr_zero`; `~v` of a byte is `255 - v`. -/
def countrZero : Nat → Nat → Nat
  | 0, v => countrOne8 (255 - v)
  | k+1, v =>
    let low := v % 2 ^ bitsOf k
    if low ≠ 0 then countrZero k low
    else bitsOf k + countrZero k ((v >>> bitsOf k) % 2 ^ bitsOf k)

/-- F/base_defs/bit.hpp:247-249 `all_bit_is_one`: `v==npos_of<T>`. -/
def allBitIsOne (k v : Nat) : Bool := v == 2 ^ bitsOf k - 1

/-- F/base_defs/bit.hpp:252-254 `all_bit_is_zero`: `return v;`, i.e. true when `v` is non-zero. -/
def allBitIsZero (_k v : Nat) : Bool := v != 0

/-! ### bitset -/

/-- F/base_defs/bitset.hpp:32-39 `bitset<N>::_data`: the bytes, `data_size = ceil_div(N,8)` of them.
The `byteset` base class is not modelled (its storage is shadowed by `_data`). -/
abbrev Bytes := List (BitVec 8)

/-- F/base_defs/bitset.hpp:34 `data_size`. -/
def dataSize (N : Nat) : Nat := (N + 7) / 8

/-- F/base_defs/bitset.hpp:46-53 `arec_t::operator bool`: `_data[_quot]&(1<<_mod)`.  Reading outside
the storage is `none`. -/
def bsGet (d : Bytes) (i : Nat) : Option Bool :=
  (d[i / 8]?).map fun b => (b &&& (1#8 <<< (i % 8))) != 0#8

/-- The byte update shared by the `arec_t` operators; outside the storage is `none`. -/
def bsUpdate (d : Bytes) (i : Nat) (f : BitVec 8 → BitVec 8) : Option Bytes :=
  if i / 8 < d.length then some (d.modify (i / 8) f) else none

/-- F/base_defs/bitset.hpp:54-60 `arec_t::operator=`. -/
def bsSet (d : Bytes) (i : Nat) (b : Bool) : Option Bytes :=
  if b then bsUpdate d i (· ||| (1#8 <<< (i % 8))) else bsUpdate d i (· &&& ~~~(1#8 <<< (i % 8)))

/-- F/base_defs/bitset.hpp:61-65 `arec_t::operator&=`. -/
def bsAndSet (d : Bytes) (i : Nat) (b : Bool) : Option Bytes :=
  if !b then bsUpdate d i (· &&& ~~~(1#8 <<< (i % 8))) else some d

/-- F/base_defs/bitset.hpp:66-70 `arec_t::operator|=`. -/
def bsOrSet (d : Bytes) (i : Nat) (b : Bool) : Option Bytes :=
  if b then bsUpdate d i (· ||| (1#8 <<< (i % 8))) else some d

/-- F/base_defs/bitset.hpp:71-75 `arec_t::operator^=`. -/
def bsXorSet (d : Bytes) (i : Nat) (b : Bool) : Option Bytes :=
  if b then bsUpdate d i (· ^^^ (1#8 <<< (i % 8))) else some d

/-- F/base_defs/bitset.hpp:99-104 `operator~`. -/
def bsNot (d : Bytes) : Bytes := d.map (~~~ ·)

/-- F/base_defs/bitset.hpp:105-109 `operator&=` of two sets of the same type. -/
def bsAnd (d e : Bytes) : Bytes := List.zipWith (· &&& ·) d e

/-- F/base_defs/bitset.hpp:110-114 `operator|=`. -/
def bsOr (d e : Bytes) : Bytes := List.zipWith (· ||| ·) d e

/-- F/base_defs/bitset.hpp:115-119 `operator^=`. -/
def bsXor (d e : Bytes) : Bytes := List.zipWith (· ^^^ ·) d e

/-- F/base_defs/bitset.hpp:120-130 `operator=(T n)`: `size` rounds of `divmod(n,256)`. -/
def bsOfNat : Nat → Nat → Bytes
  | 0, _ => []
  | s+1, n => BitVec.ofNat 8 (n % 256) :: bsOfNat s (n / 256)

/-- F/base_defs/bitset.hpp:133-143 `operator T`: Horner's rule from the last byte, in `t` bits. -/
def bsToNat (t : Nat) : Bytes → Nat
  | [] => 0
  | b :: d => (bsToNat t d * 256 % 2 ^ t + b.toNat) % 2 ^ t

/-- F/base_defs/bitset.hpp:145-150, the loop of `operator<<=`: from byte `i-1` down to byte 0,
`carry=swap(_data[i],byte((_data[i]<<offset)|carry))>>(8-offset)`, where `swap` returns the old
value. -/
def bsShlLoop (offset : Nat) : Nat → Bytes → BitVec 8 → Bytes
  | 0, d, _ => d
  | i+1, d, carry =>
    let old := d.getD i 0#8
    bsShlLoop offset i (d.set i ((old <<< offset) ||| carry)) (old >>> (8 - offset))

/-- F/base_defs/bitset.hpp:145-153 `operator<<=`.  When `n/8` exceeds the number of bytes the loop
counter wraps around and the code writes outside the storage: `none`. -/
def bsShl (d : Bytes) (n : Nat) : Option Bytes :=
  let step := n / 8
  if step > d.length then none
  else
    let d := bsShlLoop (n % 8) (d.length - step) d 0#8
    some (List.replicate step 0#8 ++ d.drop step)

/-- F/base_defs/bitset.hpp:156-159, the loop of `operator>>=`, over the bytes from `move_step` on. -/
def bsShrLoop (offset : Nat) : Bytes → BitVec 8 → Bytes
  | [], _ => []
  | old :: d, carry => ((old >>> offset) ||| carry) :: bsShrLoop offset d (old <<< (8 - offset))

/-- F/base_defs/bitset.hpp:154-162 `operator>>=`; out of bounds as for `<<=`. -/
def bsShr (d : Bytes) (n : Nat) : Option Bytes :=
  let step := n / 8
  if step > d.length then none
  else
    let d := d.take step ++ bsShrLoop (n % 8) (d.drop step) 0#8
    some (d.take (d.length - step) ++ List.replicate step 0#8)

/-- F/base_defs/bitset.hpp:168-175 `operator==` of two `bitset<N>`. -/
def bsEq (N : Nat) (d e : Bytes) : Bool :=
  let last := dataSize N - 1
  (d.take last == e.take last) &&
    (d.getD last 0#8 >>> (N % 8)) == (e.getD last 0#8 >>> (N % 8))

end ELC.Bits
