import Verif.Bits.Model
import Verif.Numeral.Model
/-!
The text of a bit set: `to_string(const bitset<N>&, repres)`, F/numerical_representation/to_string/_body.hpp:725-728,
and the output of bit sets to text streams, F/_multi/arithmetic_text_io.hpp:93-97.
-/
namespace ELC.Bittext
open ELC.Bits ELC.Numeral

/-- F/base_defs/bitset.hpp:133-143 `operator T` for `T` = `ubigint`: Horner's rule from the last byte.  The arithmetic
of big integers is taken as exact (it is modelled in the area `Ubig`). -/
def bigOf : Bytes → Nat
  | [] => 0
  | b :: d => bigOf d * 256 + b.toNat

/-- _body.hpp:725-728: `(*this)(ubigint(val),repres).pad_left(N,repres.get_char(0))`.  `N` is the number of bits, `d`
the bytes, `w` the width of the digits of a big integer.  `none`: a loop without end. -/
def bitsetText (R : Rep) (w N : Nat) (d : Bytes) : Option (List Nat) :=
  (toStringBig R w (bigOf d)).map (padLeft N (R.getChar 0))

/-- arithmetic_text_io.hpp:42, 61-66, 95-97 `operator<<` of a text stream: the stream's own representation of bit sets
if it has one, else `binary`. -/
def streamText (own : Option Rep) (w N : Nat) (d : Bytes) : Option (List Nat) :=
  bitsetText (own.getD binary) w N d

end ELC.Bittext
