import Verif.Mixed.Model
/-! What is asked of the greatest and the least of numbers. -/
namespace ELC.Mixed.Spec
open ELC.Mixed

/-- The values of a type. -/
def Has (t : ITy) (x : Int) : Prop :=
  if t.signed then -2 ^ (t.bits - 1) ≤ x ∧ x < 2 ^ (t.bits - 1) else 0 ≤ x ∧ x < 2 ^ t.bits

/-- A number as there are: its value is one of its type, and the type has at least one bit. -/
def Num.Ok (a : Num) : Prop := 0 < a.ty.bits ∧ Has a.ty a.val

/-- `m` is the greatest of these. -/
def Greatest (l : List Int) (m : Int) : Prop := m ∈ l ∧ ∀ x ∈ l, x ≤ m
/-- `m` is the least of these. -/
def Least (l : List Int) (m : Int) : Prop := m ∈ l ∧ ∀ x ∈ l, m ≤ x

/-- The places of the numbers among these. -/
def places : List Flt → List Int
  | [] => []
  | .nan :: l => places l
  | .num x :: l => x :: places l

/-- The part before the first NaN. -/
def untilNan : List Flt → List Flt
  | [] => []
  | .nan :: _ => []
  | .num x :: l => .num x :: untilNan l

/-- `r` is the greatest of these places, as a floating point number. -/
def IsMax (l : List Int) (r : Flt) : Prop := ∃ m, r = .num m ∧ Greatest l m
/-- `r` is the least of these places. -/
def IsMin (l : List Int) (r : Flt) : Prop := ∃ m, r = .num m ∧ Least l m

end ELC.Mixed.Spec
