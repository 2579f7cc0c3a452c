import Verif.Numeral.Spec
/-! What a literal denotes, independently of how it is evaluated. -/
namespace ELC.Literal.Spec
open ELC.Numeral.Spec (positional)

/-- The digit a character stands for: `0`-`9`, then `a`-`f` or `A`-`F`. -/
def digitOf (c : Nat) : Option Nat :=
  if 48 ≤ c ∧ c ≤ 57 then some (c - 48)
  else if 97 ≤ c ∧ c ≤ 102 then some (c - 97 + 10)
  else if 65 ≤ c ∧ c ≤ 70 then some (c - 65 + 10)
  else none

/-- `cs` consists of the digits `ds` of base `base`, with separators `'` anywhere. -/
def Spells (base : Nat) (cs ds : List Nat) : Prop :=
  (cs.filter (· ≠ 39)).map digitOf = ds.map some ∧ ∀ d ∈ ds, d < base

/-- Integer literals with default base `d` and the number they denote. -/
inductive Integer (d : Nat) : List Nat → Nat → Prop
  | hex {x cs ds} : x = 120 ∨ x = 88 → Spells 16 cs ds → Integer d (48 :: x :: cs) (positional 16 ds)
  | bin {x cs ds} : x = 98 ∨ x = 66 → Spells 2 cs ds → Integer d (48 :: x :: cs) (positional 2 ds)
  | oct {cs ds} : Spells 8 cs ds → Integer d (48 :: cs) (positional 8 ds)
  | plain {cs ds} : cs.head? ≠ some 48 → Spells d cs ds → Integer d cs (positional d ds)

/-- Exponents: an integer literal, or `-` and an integer literal. -/
inductive Exponent (d : Nat) : List Nat → Int → Prop
  | pos {cs n} : cs.head? ≠ some 45 → Integer d cs n → Exponent d cs n
  | neg {cs n} : Integer d cs n → Exponent d (45 :: cs) (-(n : Int))

/-- Digits with or without a point. -/
inductive Mantissa (base : Nat) : List Nat → ℚ → Prop
  | int {cs ds} : Spells base cs ds → Mantissa base cs (positional base ds)
  | point {a b ds es} : Spells base a ds → Spells base b es →
      Mantissa base (a ++ 46 :: b) (positional base ds + (positional base es : ℚ) / (base : ℚ) ^ es.length)

/-- A mantissa, with or without an exponent announced by `e` or its capital. -/
inductive Body (base e : Nat) : List Nat → ℚ → Prop
  | plain {m q} : Mantissa base m q → Body base e m q
  | exp {m q x s z} : Mantissa base m q → x = e ∨ x + 32 = e → Exponent base s z →
      Body base e (m ++ x :: s) (q * (base : ℚ) ^ z)

/-- Fraction literals. -/
inductive Float : List Nat → ℚ → Prop
  | hex {x cs q} : x = 120 ∨ x = 88 → Body 16 112 cs q → Float (48 :: x :: cs) q
  | dec {cs q} : Body 10 101 cs q → Float cs q

end ELC.Literal.Spec
