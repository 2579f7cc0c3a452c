/-
Specification: the UTF-8 table of RFC 3629 and the UTF-16 rule of RFC 2781, written with
base-64 digits and the offset 0x10000, independently of the code's shifts and constants.
-/
namespace ELC.Utf.Spec

/-- A continuation byte carrying the base-64 digit number `k` of `c`. -/
def cont (c k : Nat) : Nat := 128 + c / 64 ^ k % 64

/-- RFC 3629 section 3. -/
def utf8 (c : Nat) : List Nat :=
  if c ≤ 0x7F then [c]
  else if c ≤ 0x7FF then [0b11000000 + c / 64, cont c 0]
  else if c ≤ 0xFFFF then [0b11100000 + c / 64 ^ 2, cont c 1, cont c 0]
  else [0b11110000 + c / 64 ^ 3, cont c 2, cont c 1, cont c 0]

/-- RFC 2781 section 2.1. -/
def utf16 (c : Nat) : List Nat :=
  if c < 0x10000 then [c]
  else [0xD800 + (c - 0x10000) / 1024, 0xDC00 + (c - 0x10000) % 1024]

/-- Code points of Unicode. -/
def IsCodePoint (c : Nat) : Prop := c ≤ 0x10FFFF

/-- Unicode scalar values: code points that are not surrogates. -/
def IsScalar (c : Nat) : Prop := c ≤ 0x10FFFF ∧ ¬ (0xD800 ≤ c ∧ c ≤ 0xDFFF)

/-- Encoding of a whole text. -/
def utf8Text (s : List Nat) : List Nat := s.flatMap utf8
/-- Encoding of a whole text. -/
def utf16Text (s : List Nat) : List Nat := s.flatMap utf16

end ELC.Utf.Spec
