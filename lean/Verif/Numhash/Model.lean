import Verif.Hash.Model
import Verif.Ubig.Model
import Verif.Whole.Model
/-!
Hashes of numbers: `hash` of native numbers (F/base_defs/hash.hpp:142-151), of `ubigint`, `bigint`, `ubigfloat` and `bigfloat`
(F/bignum/bignum).  `hash_base_t` has 64 bits; a digit of a big number has `w` bits, `w ≤ 64`.
-/
namespace ELC.Numhash

open ELC.Hash (Word)
open ELC.Ubig (Digits)

/-- hash.hpp:145-146: a native integer of at most 64 bits is converted. -/
def hashInt (z : Int) : Word := BitVec.ofInt 64 z

/-- hash.hpp:145-146: a native floating point number is converted to an unsigned integer; `none` where that is undefined: the number
without its fraction has to be one. -/
def hashFloat (I : Float.Info) (v : Whole.Num) : Option Word :=
  (Whole.toUint I v.mag).bind fun n => if v.neg && n != 0 then none else some (BitVec.ofNat 64 n)

/-- ubigint.hpp:1257-1259 `hash`: that of the array of the digits, F/base/container/array/defs.hpp:149; the digits are native
integers. -/
def hashUbig (a : Digits) : Word := Hash.hashArray (fun d : Nat => hashInt d) a

/-- bigint.hpp:350-353 `hash`, bigfloat.hpp:372-375 `hash`: `tmp*7u` for a negative number. -/
def withSign (neg : Bool) (tmp : Word) : Word := if neg then tmp * 7#64 else tmp

/-- bigint.hpp:350-353 `hash`. -/
def hashBig (neg : Bool) (a : Digits) : Word := withSign neg (hashUbig a)

/-- ubigfloat.hpp:500-502 `hash`. -/
def hashFrac (num den : Digits) : Word := hashUbig num * 13#64 + hashUbig den

/-- bigfloat.hpp:372-375 `hash`. -/
def hashSigned (neg : Bool) (num den : Digits) : Word := withSign neg (hashFrac num den)

/-- F/base/container/hash_table/defs.hpp:43-45 `find_bucket`: the number of the bucket where a key is put, and where it is looked
for. -/
def bucket (h : Word) (buckets : Nat) : Nat := h.toNat % buckets

end ELC.Numhash
