/-
Specification: the values a user of `logical_bool` distinguishes (documentation
F/base_defs/logical_bool.hpp:32-40): true, false, neither, either, and the illegal value unknown.
-/
namespace ELC.LogicalSpec

/-- The five observable values. -/
inductive Val | t | f | neither | either | unknown
deriving DecidableEq, Repr

/-- The order "at least as true as" on the four legal values: false below neither and either, both below true. -/
def le : Val → Val → Bool
  | .unknown, _ => false
  | _, .unknown => false
  | .f, _ => true
  | _, .t => true
  | a, b => a == b

/-- Which legal values count as true in a condition. -/
def holds : Val → Bool
  | .t => true
  | .either => true
  | _ => false

end ELC.LogicalSpec
