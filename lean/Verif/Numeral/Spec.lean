import Verif.Numeral.Model
import Verif.Bigfloat.Spec
/-! What a text of digits denotes. -/
namespace ELC.Numeral.Spec

/-- The value of digits in base `r`, most significant digit first. -/
def positional (r : Nat) (ds : List Nat) : Nat := ds.foldl (fun v d => v * r + d) 0

/-- A usable representation: at least two digits, each with its own valid character, and no other valid
character. -/
structure Good (R : Rep) : Prop where
  two : 2 ≤ R.radix
  valid : ∀ i, i < R.radix → R.isValid (R.getChar i) = true
  index : ∀ i, i < R.radix → R.getIndex (R.getChar i) = i
  only : ∀ c, R.isValid c = true → ∃ i, i < R.radix ∧ R.getChar i = c

/-- `s` is a text of digits denoting `n`. -/
def Denotes (R : Rep) (s : List Nat) (n : Nat) : Prop :=
  ∃ ds, s = ds.map R.getChar ∧ (∀ d ∈ ds, d < R.radix) ∧ positional R.radix ds = n

/-- `s` is the usual text of `n`: its digits without a leading zero, and a single zero digit for zero. -/
def Numeral (R : Rep) (s : List Nat) (n : Nat) : Prop :=
  ∃ ds, s = ds.map R.getChar ∧ (∀ d ∈ ds, d < R.radix) ∧ positional R.radix ds = n ∧
    ds ≠ [] ∧ (ds = [0] ∨ ds.head? ≠ some 0)

/-- A character that is not a digit of the representation. -/
def NotDigit (R : Rep) (c : Nat) : Prop := ∀ i, i < R.radix → R.getChar i ≠ c

/-- The brackets around the repeating digits are no digits, differ from each other and are not the sign of the fraction. -/
structure Brackets (R : Rep) : Prop where
  start : NotDigit R R.repStart
  stop : NotDigit R R.repEnd
  point : NotDigit R R.fracSign
  distinct : R.repStart ≠ R.repEnd
  start_point : R.repStart ≠ R.fracSign
  stop_point : R.repEnd ≠ R.fracSign

/-- The signs cannot be mistaken for digits or for one another. -/
structure DistinctSigns (R : Rep) : Prop where
  neg : NotDigit R R.negSign
  pos : NotDigit R R.posSign
  frac : NotDigit R R.fracSign
  sep : NotDigit R R.fracSep
  exp : NotDigit R R.expSep
  frac_sep : R.fracSign ≠ R.fracSep
  frac_exp : R.fracSign ≠ R.expSep
  sep_exp : R.fracSep ≠ R.expSep
  neg_exp : R.negSign ≠ R.expSep
  pos_exp : R.posSign ≠ R.expSep
  pos_neg : R.posSign ≠ R.negSign
  neg_frac : R.negSign ≠ R.fracSign
  neg_sep : R.negSign ≠ R.fracSep
  pos_frac : R.posSign ≠ R.fracSign
  pos_sep : R.posSign ≠ R.fracSep

/-- Digits, or digits with a fractional sign in between, and the number they denote. -/
inductive Decimal (R : Rep) : List Nat → ℚ → Prop
  | int (ds : List Nat) : (∀ d ∈ ds, d < R.radix) → Decimal R (ds.map R.getChar) (positional R.radix ds)
  | point (a b : List Nat) : (∀ d ∈ a, d < R.radix) → (∀ d ∈ b, d < R.radix) →
      Decimal R (a.map R.getChar ++ R.fracSign :: b.map R.getChar)
        (positional R.radix a + (positional R.radix b : ℚ) / (R.radix : ℚ) ^ b.length)

/-- Decimals divided by one another. -/
inductive Fraction (R : Rep) : List Nat → ℚ → Prop
  | decimal {s : List Nat} {q : ℚ} : Decimal R s q → Fraction R s q
  | div {s t : List Nat} {q p : ℚ} : Decimal R s q → Fraction R t p → p ≠ 0 →
      Fraction R (s ++ R.fracSep :: t) (q / p)

/-- An integer with or without a sign. -/
inductive Signed (R : Rep) : List Nat → ℤ → Prop
  | plain (ds : List Nat) : ds ≠ [] → (∀ d ∈ ds, d < R.radix) →
      Signed R (ds.map R.getChar) (positional R.radix ds)
  | pos (ds : List Nat) : (∀ d ∈ ds, d < R.radix) →
      Signed R (R.posSign :: ds.map R.getChar) (positional R.radix ds)
  | neg (ds : List Nat) : (∀ d ∈ ds, d < R.radix) →
      Signed R (R.negSign :: ds.map R.getChar) (-(positional R.radix ds : ℤ))

/-- The texts of unsigned fractions: a fraction followed by any number of exponents. -/
inductive Reads (R : Rep) : List Nat → ℚ → Prop
  | fraction {s : List Nat} {q : ℚ} : Fraction R s q → Reads R s q
  | exp {s e : List Nat} {q : ℚ} {z : ℤ} : Reads R s q → Signed R e z →
      Reads R (s ++ R.expSep :: e) (q * (R.radix : ℚ) ^ z)

/-- The value of `int.pre` followed by the block `rep` repeated for ever, in base `r`: the geometric series
`pre/r^|pre| + rep/(r^|pre|·(r^|rep|-1))`. -/
def expansion (r : Nat) (int : Nat) (pre rep : List Nat) : ℚ :=
  int + (positional r pre : ℚ) / (r : ℚ) ^ pre.length +
    (positional r rep : ℚ) / ((r : ℚ) ^ pre.length * ((r : ℚ) ^ rep.length - 1))

end ELC.Numeral.Spec
