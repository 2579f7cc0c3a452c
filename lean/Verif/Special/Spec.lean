import Verif.Special.Model
import Verif.Numeral.Spec
/-! What is asked of the words for special values, and lists of fields. -/
namespace ELC.Special.Spec
open ELC.Numeral (Rep)
open ELC.Numeral.Spec (NotDigit)

/-- A word that does not begin with a sign. -/
def Word (R : Rep) (w : List Nat) : Prop := ∃ c cs, w = c :: cs ∧ c ≠ R.negSign ∧ c ≠ R.posSign

/-- The words are different, none of the others begins with the one for NaN, and the separator is not a digit. -/
structure Good (R : Rep) (W : Words) : Prop where
  nan : Word R W.nan
  snan : Word R W.snan
  qnan : Word R W.qnan
  inf : Word R W.inf
  nan_snan : ¬ W.nan <+: W.snan
  nan_qnan : ¬ W.nan <+: W.qnan
  nan_inf : ¬ W.nan <+: W.inf
  snan_qnan : W.snan ≠ W.qnan
  inf_snan : W.inf ≠ W.snan
  inf_qnan : W.inf ≠ W.qnan
  split : NotDigit R W.dataSplit

/-- The fields with the separator `c` between them. -/
def joined (c : Nat) : List (List Nat) → List Nat
  | [] => []
  | [f] => f
  | f :: fs => f ++ c :: joined c fs

end ELC.Special.Spec
