/-
What the classes of characters are, written down from the Unicode character database (version 15)
and not from the table of the program: closed ranges of code points.
-/
namespace ELC.Chars.Spec

/-- `c` is in one of the closed ranges. -/
def In (L : List (Nat × Nat)) (c : Nat) : Prop := ∃ r ∈ L, r.1 ≤ c ∧ c ≤ r.2

instance (L : List (Nat × Nat)) (c : Nat) : Decidable (In L c) := by unfold In; infer_instance

/-- The zeros of the decimal digits (general category Nd): each starts ten digits. -/
def digitZeros : List Nat :=
  [0x30, 0x660, 0x6f0, 0x7c0, 0x966, 0x9e6, 0xa66, 0xae6, 0xb66, 0xbe6,
   0xc66, 0xce6, 0xd66, 0xde6, 0xe50, 0xed0, 0xf20, 0x1040, 0x1090, 0x17e0,
   0x1810, 0x1946, 0x19d0, 0x1a80, 0x1a90, 0x1b50, 0x1bb0, 0x1c40, 0x1c50, 0xa620,
   0xa8d0, 0xa900, 0xa9d0, 0xa9f0, 0xaa50, 0xabf0, 0xff10, 0x104a0, 0x10d30, 0x11066,
   0x110f0, 0x11136, 0x111d0, 0x112f0, 0x11450, 0x114d0, 0x11650, 0x116c0, 0x11730, 0x118e0,
   0x11950, 0x11c50, 0x11d50, 0x11da0, 0x11f50, 0x16a60, 0x16ac0, 0x16b50, 0x1d7ce, 0x1d7d8,
   0x1d7e2, 0x1d7ec, 0x1d7f6, 0x1e140, 0x1e2f0, 0x1e4f0, 0x1e950, 0x1fbf0]

/-- The decimal digits. -/
def digits : List (Nat × Nat) := digitZeros.map fun z => (z, z + 9)

/-- Control characters (Cc): C0, delete and C1. -/
def controls : List (Nat × Nat) := [(0, 0x1f), (0x7f, 0x9f)]

/-- Space separators (Zs). -/
def spaces : List (Nat × Nat) :=
  [(0x20, 0x20), (0xa0, 0xa0), (0x1680, 0x1680), (0x2000, 0x200a), (0x202f, 0x202f),
   (0x205f, 0x205f), (0x3000, 0x3000)]

/-- The line separator (Zl). -/
def lineSeparators : List (Nat × Nat) := [(0x2028, 0x2028)]

/-- The paragraph separator (Zp). -/
def paragraphSeparators : List (Nat × Nat) := [(0x2029, 0x2029)]

/-- Format characters (Cf). -/
def formats : List (Nat × Nat) :=
  [(0xad, 0xad), (0x600, 0x605), (0x61c, 0x61c), (0x6dd, 0x6dd), (0x70f, 0x70f),
   (0x890, 0x891), (0x8e2, 0x8e2), (0x180e, 0x180e), (0x200b, 0x200f), (0x202a, 0x202e),
   (0x2060, 0x2064), (0x2066, 0x206f), (0xfeff, 0xfeff), (0xfff9, 0xfffb), (0x110bd, 0x110bd),
   (0x110cd, 0x110cd), (0x13430, 0x1343f), (0x1bca0, 0x1bca3), (0x1d173, 0x1d17a), (0xe0001, 0xe0001),
   (0xe0020, 0xe007f)]

/-- Private use (Co). -/
def privateUse : List (Nat × Nat) := [(0xe000, 0xf8ff), (0xf0000, 0xffffd), (0x100000, 0x10fffd)]

/-- Surrogates (Cs). -/
def surrogates : List (Nat × Nat) := [(0xd800, 0xdfff)]

/-- Noncharacters. -/
def Noncharacter (c : Nat) : Prop :=
  c ≤ 0x10ffff ∧ ((0xfdd0 ≤ c ∧ c ≤ 0xfdef) ∨ c % 0x10000 = 0xfffe ∨ c % 0x10000 = 0xffff)

/-- The general categories of Unicode, in the order of their numbers in ICU. -/
inductive Category
  | cn | lu | ll | lt | lm | lo | mn | me | mc | nd | nl | no | zs | zl | zp | cc | cf | co | cs
  | pd | ps | pe | pc | po | sm | sc | sk | so | pi | pf
deriving DecidableEq, Repr

/-- The number of a category. -/
def Category.code (k : Category) : Nat := k.ctorIdx

open Category in
/-- Letters. -/
def letters : List Category := [lu, ll, lt, lm, lo]

open Category in
/-- Characters something can combine with, and those that take space themselves. -/
def bases : List Category := letters ++ [nd, nl, no, mc, me]

open Category in
/-- Punctuation. -/
def punctuation : List Category := [pd, ps, pe, pc, po, pi, pf]

open Category in
/-- What is not printed. -/
def unprintable : List Category := [cn, cc, cf, co, cs]

open Category in
/-- What has no picture. -/
def invisible : List Category := [cn, cc, cf, cs, zs, zl, zp]

end ELC.Chars.Spec
