import Verif.Float.Spec
/-! Numbers with a sign in a binary floating point format. -/
namespace ELC.Uniform.Spec
open ELC.Float.Spec

/-- The number denoted by a sign and a magnitude. -/
def value (f : Format) (neg : Bool) (d : Nat) : ℚ := if neg then -magnitude f d else magnitude f d

end ELC.Uniform.Spec
