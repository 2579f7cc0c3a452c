import Verif.Chars.Data

/-
Classes of characters.  Models S/char_set/marcos/_defs.hpp:30-66 (the lookup),
S/char_set/constexprs.hpp:33-286 (constants) and S/char_set/isX.hpp:31-141 (the classes).
A character is a `char32_t`: any number below 2^32, not only a code point.
Reading an element the array does not have is `none`.
-/
namespace ELC.Chars

/-- The array read at an index: S/char_set/props_data.hpp:30. -/
def propsIndex (i : Nat) : Option Nat :=
  if i < tableSize then some ((tableBits >>> (16 * i)) % 2 ^ 16) else none

/-- S/char_set/constexprs.hpp:33. -/
def shift1 : Nat := 6 + 5

/-- S/char_set/constexprs.hpp:36. -/
def shift2 : Nat := 5

/-- S/char_set/constexprs.hpp:48. -/
def omittedBmpIndex1Length : Nat := 0x10000 >>> shift1

/-- S/char_set/constexprs.hpp:57. -/
def index2Mask : Nat := 2 ^ (shift1 - shift2) - 1

/-- S/char_set/constexprs.hpp:63. -/
def dataMask : Nat := 2 ^ shift2 - 1

/-- S/char_set/constexprs.hpp:71. -/
def indexShift : Nat := 2

/-- S/char_set/constexprs.hpp:90. -/
def lscpIndex2Offset : Nat := 0x10000 >>> shift2

/-- S/char_set/constexprs.hpp:115. -/
def index1Offset : Nat := lscpIndex2Offset + (0x400 >>> shift2) + (0x800 >>> 6)

/-- S/char_set/constexprs.hpp:128. -/
def badUtf8DataOffset : Nat := 0x80

/-- S/char_set/props_data.hpp:1472-1485 `propstrie.indexLength`. -/
def indexLength : Nat := 4692

/-- S/char_set/props_data.hpp:1472-1485 `propstrie.highStart`. -/
def highStart : Nat := 0x110000

/-- S/char_set/props_data.hpp:1472-1485 `propstrie.highValueIndex`. -/
def highValueIndex : Nat := 0x59e4

/-- S/char_set/marcos/_defs.hpp:36-42 `_UTRIE_INDEX_FROM_SUPP`. -/
def indexFromSupp (c : Nat) : Option Nat := do
  let i1 ← propsIndex ((index1Offset - omittedBmpIndex1Length) + (c >>> shift1))
  let i2 ← propsIndex (i1 + ((c >>> shift2) &&& index2Mask))
  return (i2 <<< indexShift) + (c &&& dataMask)

/-- S/char_set/marcos/_defs.hpp:44-47 `_UTRIE_INDEX_RAW`. -/
def indexRaw (offset c : Nat) : Option Nat := do
  let i2 ← propsIndex (offset + (c >>> shift2))
  return (i2 <<< indexShift) + (c &&& dataMask)

/-- S/char_set/marcos/_defs.hpp:49-60 `_UTRIE_INDEX_FROM_CP`, with `asciiOffset` = `indexLength`. -/
def indexFromCp (c : Nat) : Option Nat :=
  if c < 0xd800 then indexRaw 0 c
  else if c ≤ 0xffff then
    indexRaw (if c ≤ 0xdbff then lscpIndex2Offset - (0xd800 >>> shift2) else 0) c
  else if c > 0x10ffff then some (indexLength + badUtf8DataOffset)
  else if c ≥ highStart then some highValueIndex
  else indexFromSupp c

/-- S/char_set/marcos/_defs.hpp:62-66 `GET_PROPS`. -/
def getProps (c : Nat) : Option Nat := do propsIndex (← indexFromCp c)

/-- S/char_set/marcos/_defs.hpp:32 `GET_CATEGORY`. -/
def getCategory (props : Nat) : Nat := props &&& 0x1f

/-- S/char_set/marcos/_defs.hpp:30 `U_MASK`. -/
def uMask (x : Nat) : Nat := 1 <<< x

/-- S/char_set/marcos/_defs.hpp:34 `CAT_MASK`. -/
def catMask (props : Nat) : Nat := uMask (getCategory props)

/-- S/char_set/constexprs.hpp:268, with the categories of lines 133-195. -/
def maskL : Nat := uMask 1 ||| uMask 2 ||| uMask 3 ||| uMask 4 ||| uMask 5

/-- S/char_set/constexprs.hpp:219, with the categories of lines 133-195. -/
def maskNd : Nat := uMask 9

/-- S/char_set/constexprs.hpp:277, with the categories of lines 133-195. -/
def maskN : Nat := uMask 9 ||| uMask 10 ||| uMask 11

/-- S/char_set/constexprs.hpp:216, with the categories of lines 133-195. -/
def maskMc : Nat := uMask 8

/-- S/char_set/constexprs.hpp:214, with the categories of lines 133-195. -/
def maskMe : Nat := uMask 7

/-- S/char_set/constexprs.hpp:280, with the categories of lines 133-195. -/
def maskZ : Nat := uMask 12 ||| uMask 13 ||| uMask 14

/-- S/char_set/constexprs.hpp:283, with the categories of lines 133-195. -/
def maskC : Nat := uMask 0 ||| uMask 15 ||| uMask 16 ||| uMask 17 ||| uMask 18

/-- S/char_set/constexprs.hpp:286, with the categories of lines 133-195. -/
def maskP : Nat := uMask 19 ||| uMask 20 ||| uMask 21 ||| uMask 22 ||| uMask 23 ||| uMask 28 ||| uMask 29

/-- S/char_set/isX.hpp:31-34 `islower`. -/
def islower (c : Nat) : Option Bool := do return getCategory (← getProps c) == 2

/-- S/char_set/isX.hpp:37-40 `isupper`. -/
def isupper (c : Nat) : Option Bool := do return getCategory (← getProps c) == 1

/-- S/char_set/isX.hpp:43-46 `istitle`. -/
def istitle (c : Nat) : Option Bool := do return getCategory (← getProps c) == 3

/-- S/char_set/isX.hpp:49-52 `isdigit`. -/
def isdigit (c : Nat) : Option Bool := do return getCategory (← getProps c) == 9

/-- S/char_set/isX.hpp:54-65 `isxdigit`. -/
def isxdigit (c : Nat) : Option Bool :=
  if (c ≤ 0x66 ∧ c ≥ 0x41 ∧ (c ≤ 0x46 ∨ c ≥ 0x61)) ∨
      (c ≥ 0xff21 ∧ c ≤ 0xff46 ∧ (c ≤ 0xff26 ∨ c ≥ 0xff41)) then some true
  else do return getCategory (← getProps c) == 9

/-- S/char_set/isX.hpp:68-71 `isalpha`. -/
def isalpha (c : Nat) : Option Bool := do return catMask (← getProps c) &&& maskL != 0

/-- S/char_set/isX.hpp:74-77 `isalnum`. -/
def isalnum (c : Nat) : Option Bool := do return catMask (← getProps c) &&& (maskL ||| maskNd) != 0

/-- S/char_set/isX.hpp:80-83 `isdefined`. -/
def isdefined (c : Nat) : Option Bool := do return getCategory (← getProps c) != 0

/-- S/char_set/isX.hpp:86-89 `isbase`. -/
def isbase (c : Nat) : Option Bool := do
  return catMask (← getProps c) &&& (maskL ||| maskN ||| maskMc ||| maskMe) != 0

/-- S/char_set/isX.hpp:92-95 `iscntrl`. -/
def iscntrl (c : Nat) : Option Bool := do
  return catMask (← getProps c) &&& (uMask 15 ||| uMask 16 ||| uMask 13 ||| uMask 14) != 0

/-- S/char_set/isX.hpp:97-99 `isISOControl`. -/
def isISOControl (c : Nat) : Option Bool := some (decide (c ≤ 0x9f ∧ (c ≤ 0x1f ∨ c ≥ 0x7f)))

/-- S/char_set/isX.hpp:102-103 `IS_THAT_CONTROL_SPACE`, with `TAB` = 9 and `CR` = 0xd. -/
def isThatControlSpace (c : Nat) : Bool :=
  decide (c ≤ 0x9f ∧ ((c ≥ 9 ∧ c ≤ 0xd) ∨ (c ≥ 0x1c ∧ c ≤ 0x1f) ∨ c = 0x85))

/-- S/char_set/isX.hpp:106-109 `isspace`. -/
def isspace (c : Nat) : Option Bool := do
  return (catMask (← getProps c) &&& maskZ != 0) || isThatControlSpace c

/-- S/char_set/isX.hpp:113-121 `isblank`. -/
def isblank (c : Nat) : Option Bool :=
  if c ≤ 0x9f then some (decide (c = 9 ∨ c = 0x20))
  else do return getCategory (← getProps c) == 12

/-- S/char_set/isX.hpp:124-128 `isprint`. -/
def isprint (c : Nat) : Option Bool := do return catMask (← getProps c) &&& maskC == 0

/-- S/char_set/isX.hpp:130-136 `isgraph`. -/
def isgraph (c : Nat) : Option Bool := do
  return catMask (← getProps c) &&& (uMask 15 ||| uMask 16 ||| uMask 18 ||| uMask 0 ||| maskZ) == 0

/-- S/char_set/isX.hpp:138-141 `ispunct`. -/
def ispunct (c : Nat) : Option Bool := do return catMask (← getProps c) &&& maskP != 0

end ELC.Chars
