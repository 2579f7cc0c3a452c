import Verif.Whole.Model
import Verif.Float.Spec
/-! The value of a signed floating point number. -/
namespace ELC.Whole

open ELC.Float ELC.Float.Spec

/-- The value: the magnitude of the bytes, with the sign. -/
def Num.value (f : Format) (v : Num) : ℚ := if v.neg then -magnitude f v.mag else magnitude f v.mag

end ELC.Whole
