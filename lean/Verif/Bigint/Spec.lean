import Verif.Bigint.Model
/-! The integer a sign and a magnitude denote. -/
namespace ELC.Bigint.Spec

/-- The integer denoted. -/
def value (a : Big) : Int := if a.neg then -(a.num : Int) else a.num

/-- Not a negative zero. -/
def Normal (a : Big) : Prop := a.num = 0 → a.neg = false

end ELC.Bigint.Spec
