import Verif.Float.Model
import Verif.Numeral.Model
/-!
The text of NaN and of the infinities: `F/numerical_representation/to_string/_body.hpp` (_body.hpp below), for native floating point
types.

A number is its bytes as a natural number, the sign being the highest bit.  `q` and `s` are the quiet and the signaling NaN that
`numeric_limits` gives (arithmetic_type_info_prover.hpp:68-73).  `none` is undefined behaviour.
Simplifications: a text is a list of characters as in `Numeral.Model`; passing a signaling NaN by value does not change it.
-/
namespace ELC.Special
open ELC.Float (Info infinity)
open ELC.Numeral (Rep State toStringNative fromNative fromChar)

/-- representations/comn.hpp:85-97, 126-152: the words and signs for special values. -/
structure Words where
  nan : List Nat
  snan : List Nat
  qnan : List Nat
  inf : List Nat
  dataStart : Nat
  dataSplit : Nat
  dataEnd : Nat

/-- comn.hpp:89-96: "NaN", "signaling_NaN", "quiet_NaN", "Infinity", and "[", ",", "]". -/
def defaultWords : Words :=
  ⟨[0x4E, 0x61, 0x4E], [0x73, 0x69, 0x67, 0x6E, 0x61, 0x6C, 0x69, 0x6E, 0x67, 0x5F, 0x4E, 0x61, 0x4E],
    [0x71, 0x75, 0x69, 0x65, 0x74, 0x5F, 0x4E, 0x61, 0x4E], [0x49, 0x6E, 0x66, 0x69, 0x6E, 0x69, 0x74, 0x79], 0x5B, 0x2C, 0x5D⟩

/-- comn.hpp:219-229: those of `valanlottish`. -/
def valanlottishWords : Words := ⟨[0xA498], [0xA497], [0xA496], [0xA4BE], 0xA4B8, 0xA4C4, 0xA4B9⟩

/-- The sign bit. -/
def signBit (I : Info) : Nat := 2 ^ (I.width - 1)

/-- F/base_defs/math.hpp:34-41 `isNaN`. -/
def isNaN (I : Info) (d : Nat) : Bool := decide (infinity I < d % signBit I)

/-- math.hpp:42-49 `isInf`. -/
def isInf (I : Info) (d : Nat) : Bool := decide (d % signBit I = infinity I)

/-- math.hpp:66-82 `copy_as_negative`. -/
def setSign (I : Info) (d : Nat) : Nat := d % signBit I + signBit I

/-- F/base_defs/data.hpp:42-120 `data_view`: the bytes in memory, the lowest first. -/
def bytes (I : Info) (d : Nat) : List Nat := (List.range (I.width / 8)).map fun i => d / 256 ^ i % 256

/-- The number that has these bytes. -/
def ofBytes (l : List Nat) : Nat := l.foldr (fun b v => b + 256 * v) 0

/-- _body.hpp:218-224: the text of the bytes. -/
def dataText (R : Rep) (W : Words) : List Nat → Option (List Nat)
  | [] => some []
  | c :: cs =>
    (toStringNative R c).bind fun t =>
      (dataText R W cs).map fun rest => if R.radix < 256 then t ++ W.dataSplit :: rest else t ++ rest

/-- _body.hpp:190-232 `to_string_NaN_handle`. -/
def nanText (R : Rep) (W : Words) (I : Info) (q s d : Nat) : Option (List Nat) :=
  if d = s then some W.snan
  else if d = setSign I s then some (R.negSign :: W.snan)
  else if d = q then some W.qnan
  else if d = setSign I q then some (R.negSign :: W.qnan)
  else
    (dataText R W (bytes I d)).map fun t =>
      let aret := W.nan ++ W.dataStart :: t
      if R.radix < 256 then aret.dropLast ++ [W.dataEnd] else aret ++ [W.dataEnd]

/-- _body.hpp:233-248 `to_string_Inf_handle`. -/
def infText (R : Rep) (W : Words) (I : Info) (d : Nat) : List Nat :=
  if d = infinity I then W.inf else R.negSign :: W.inf

/-- _body.hpp:250-256, the special values in `to_string`; `finite` is the rest of it (see `FloatText`). -/
def toText (R : Rep) (W : Words) (I : Info) (q s : Nat) (finite : Nat → Option (List Nat)) (d : Nat) : Option (List Nat) :=
  if isNaN I d then nanText R W I q s d else if isInf I d then some (infText R W I d) else finite d

/-- _body.hpp:584-592, the loop for a representation with separators: `block` are the bytes written up to now, of `n`. -/
def readSplit (R : Rep) (W : Words) (n : Nat) (str block : List Nat) (st : State) : Option (List Nat × State) :=
  if st.error then some (block, st)
  else
    match h : str.idxOf? W.dataSplit with
    | none =>
      let r := fromNative R 8 str st
      if n ≤ block.length then none else some (block ++ [r.1], r.2)
    | some p =>
      let r := fromNative R 8 (str.take p) st
      if n ≤ block.length then none else readSplit R W n (str.drop (p + 1)) (block ++ [r.1]) r.2
termination_by str.length
decreasing_by
  obtain ⟨hlt, _⟩ := List.idxOf?_eq_some_iff.1 h
  simp only [List.length_drop]
  omega

/-- _body.hpp:584, 593-594, the loop for a representation without them: it ends only with an error; `pop_front` of an empty text
is undefined. -/
def readWide (R : Rep) (n : Nat) : List Nat → List Nat → State → Option (List Nat × State)
  | str, block, st =>
    if st.error then some (block, st)
    else
      match str with
      | [] => none
      | c :: cs =>
        let r := fromChar R 8 c st
        if n ≤ block.length then none else readWide R n cs (block ++ [r.1]) r.2

/-- _body.hpp:575-600: what follows the word NaN. -/
def readNaN (R : Rep) (W : Words) (I : Info) (q : Nat) (str : List Nat) (st : State) : Option (Nat × State) :=
  if str.getLast? = some W.dataEnd then
    if str.length < 2 then none
    else
      let data := str.tail.dropLast
      let n := I.width / 8
      (if R.radix < 256 then readSplit R W n data [] st else readWide R n data [] st).bind fun r =>
        if r.2.error then some (0, r.2) else if r.1.length < n then none else some (ofBytes r.1, r.2)
  else some (q, st)

/-- _body.hpp:563-607 `from_string_get_unsigneded`; `finite` is the reading of the other texts (see `Float.readFloat`). -/
def readUnsigned (R : Rep) (W : Words) (I : Info) (q s : Nat) (finite : List Nat → State → Option (Nat × State))
    (str : List Nat) (st : State) : Option (Nat × State) :=
  if str = W.snan then some (s, st)
  else if str = W.qnan then some (q, st)
  else if W.nan.isPrefixOf str then readNaN R W I q (str.drop W.nan.length) st
  else if str = W.inf then some (infinity I, st)
  else finite str st

/-- _body.hpp:693-706 `from_string_get` of a signed type. -/
def fromText (R : Rep) (W : Words) (I : Info) (q s : Nat) (finite : List Nat → State → Option (Nat × State))
    (str : List Nat) (st : State) : Option (Nat × State) :=
  match str with
  | [] => none
  | c :: cs =>
    if c = R.negSign then (readUnsigned R W I q s finite cs st).map fun r => (setSign I r.1, r.2)
    else if c = R.posSign then readUnsigned R W I q s finite cs st
    else readUnsigned R W I q s finite str st

end ELC.Special
