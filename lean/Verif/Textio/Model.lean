import Verif.Numeral.Model
import Verif.Stream.Model

/-
Numbers and truth values written to and read from text streams.  Models F/_multi/arithmetic_text_io.hpp:33-129 and
F/numerical_representation/representations/bool.hpp:34-63, on top of areas Numeral and Stream.

Simplifications: only native integers and `bool`; bit sets, floating point numbers and pointers are not modelled.  A `bool`
is the byte it is stored in: the code writes and reads bytes other than 0 and 1 too (`other(…)`), although comparing a
`bool` with such a byte is not defined in C++.  Strings are lists of characters.
-/
namespace ELC.Textio
open Numeral (Rep State)
open Stream (In)

/-- bool.hpp:34-40 `base_bool_representation_t`: the texts for true, for false, and around other bytes. -/
structure BoolRep where
  yes : List Nat
  no : List Nat
  pre : List Nat
  suf : List Nat

/-- bool.hpp:46-60 `common_bool_representation`: `true`, `false`, `other(` and `)`. -/
def common : BoolRep :=
  ⟨[0x74, 0x72, 0x75, 0x65], [0x66, 0x61, 0x6c, 0x73, 0x65], [0x6f, 0x74, 0x68, 0x65, 0x72, 0x28], [0x29]⟩

/-- The types that are read and written: unsigned and signed integers of `t` bits, and `bool`. -/
inductive Ty where
  | unsigned (t : Nat)
  | signed (t : Nat)
  | bool
deriving DecidableEq, Repr

/-- arithmetic_text_io.hpp:62-66, 74-85: what `stream << data` adds to the text for a value of that type; `none` if that is
not defined. -/
def write (R : Rep) (B : BoolRep) : Ty → Int → Option (List Nat)
  | .unsigned _, v => Numeral.toStringNative R v.toNat
  | .signed t, v => Numeral.toStringSigned R t v
  | .bool, v =>
    if v = 1 then some B.yes
    else if v = 0 then some B.no
    else (Numeral.toStringNative R v.toNat).map fun s => B.pre ++ s ++ B.suf

/-- arithmetic_text_io.hpp:109-123: the byte after a word was read for a `bool` that had the byte `old`. -/
def boolOf (R : Rep) (B : BoolRep) (old : Int) (w : List Nat) : Int :=
  if w = B.yes then 1
  else if w = B.no then 0
  else if B.pre.isPrefixOf w then
    if B.suf.isSuffixOf (w.drop B.pre.length) then
      (Numeral.fromNative R 8 ((w.drop B.pre.length).take ((w.drop B.pre.length).length - B.suf.length)) {}).1
    else old
  else old

/-- arithmetic_text_io.hpp:95-126: `stream >> data` for a variable of that type that holds `old`.  `none`: the reading never
comes to an end, or is not defined. -/
def read (R : Rep) (B : BoolRep) (ty : Ty) (old : Int) (s : In) : Option (Int × In) :=
  (Stream.readWord s).bind fun p =>
    match ty with
    | .unsigned t => some ((Numeral.fromNative R t p.1 {}).1, p.2)
    | .signed t => (Numeral.fromSigned R t p.1 {}).map fun q => (q.1, p.2)
    | .bool => some (boolOf R B old p.1, p.2)

end ELC.Textio
