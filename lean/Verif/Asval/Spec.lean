import Verif.Asval.Model
/-! The numbers of a type. -/
namespace ELC.Asval

/-- The number `v` is a value of type `T`. -/
def Fits (T : Ty) (v : Int) : Prop :=
  if T.signed then -(2 ^ (T.bits - 1)) ≤ v ∧ v < 2 ^ (T.bits - 1) else 0 ≤ v ∧ v < 2 ^ T.bits

end ELC.Asval
