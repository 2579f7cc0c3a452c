import Verif.Textio.Model
import Verif.Numeral.Spec
import Verif.Stream.Spec

/-
What it means that values written to a text can be read back.
-/
namespace ELC.Textio.Spec
open Numeral (Rep)
open Stream (In)
open Stream.Spec (IsSpace)

/-- A value and its type. -/
structure Item where
  ty : Ty
  v : Int

/-- The values of a type that can be written: the smallest value of a signed type as wide as `int` cannot (C55). -/
def Item.Writable (i : Item) : Prop :=
  match i.ty with
  | .unsigned t => 0 ≤ i.v ∧ i.v < (2 ^ t : Nat)
  | .signed t => 1 ≤ t ∧ -(2 ^ (t - 1) : Nat) ≤ i.v ∧ i.v < (2 ^ (t - 1) : Nat) ∧
      ¬ (32 ≤ t ∧ i.v = -(2 ^ (t - 1) : Nat))
  | .bool => 0 ≤ i.v ∧ i.v < 256

/-- The digits and the minus sign are not white space. -/
def NoSpace (R : Rep) : Prop := (∀ i, i < R.radix → ¬ IsSpace (R.getChar i)) ∧ ¬ IsSpace R.negSign

/-- The texts of a `bool` can be told from one another and have no white space. -/
structure Clear (B : BoolRep) : Prop where
  differ : B.yes ≠ B.no
  yes : ¬ B.pre <+: B.yes
  no : ¬ B.pre <+: B.no
  yes_some : B.yes ≠ []
  no_some : B.no ≠ []
  black : ∀ c, c ∈ B.yes ∨ c ∈ B.no ∨ c ∈ B.pre ∨ c ∈ B.suf → ¬ IsSpace c

/-- A program that writes values one after the other, with the text `blank` before each. -/
def writeAll (R : Rep) (B : BoolRep) : List (List Nat × Item) → Option (List Nat)
  | [] => some []
  | (blank, i) :: r => (write R B i.ty i.v).bind fun s => (writeAll R B r).map fun t => blank ++ s ++ t

/-- A program that reads values of these types into variables that hold `old`. -/
def readAll (R : Rep) (B : BoolRep) (old : Ty → Int) : List Ty → In → Option (List Int × In)
  | [], s => some ([], s)
  | ty :: r, s => (read R B ty (old ty) s).bind fun p => (readAll R B old r p.2).map fun q => (p.1 :: q.1, q.2)

/-- White space. -/
def Blank (b : List Nat) : Prop := ∀ c ∈ b, IsSpace c

/-- All but the first text have a blank before them. -/
def Apart : List (List Nat × Item) → Prop
  | [] => True
  | (b, _) :: r => Blank b ∧ ∀ p ∈ r, Blank p.1 ∧ p.1 ≠ []

end ELC.Textio.Spec
