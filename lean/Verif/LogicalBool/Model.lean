/-
Four-valued booleans plus an "unknown" mark.  Models F/base_defs/logical_bool.hpp lines 47-75.
-/
namespace ELC

/-- F/base_defs/logical_bool.hpp:47-52 `struct logical_bool` with its three flags. -/
structure LogicalBool where
  isTrue : Bool
  isFalse : Bool
  isUnknown : Bool
deriving DecidableEq, Repr

namespace LogicalBool

/-- F/base_defs/logical_bool.hpp:54 `logical_bool(bool)`. -/
def ofBool (a : Bool) : LogicalBool := ⟨a, !a, false⟩

/-- F/base_defs/logical_bool.hpp:57 `explicit operator bool`. -/
def toBool (a : LogicalBool) : Bool := a.isTrue && !a.isUnknown

/-- F/base_defs/logical_bool.hpp:58-62 `operator!`. -/
def not (a : LogicalBool) : LogicalBool := ⟨a.isFalse, a.isTrue, a.isUnknown⟩

/-- F/base_defs/logical_bool.hpp:63-65 `operator&&`. -/
def and (a b : LogicalBool) : LogicalBool :=
  ⟨a.isTrue && b.isTrue, a.isFalse || b.isFalse, a.isUnknown || b.isUnknown⟩

/-- F/base_defs/logical_bool.hpp:66-68 `operator||`. -/
def or (a b : LogicalBool) : LogicalBool :=
  ⟨a.isTrue || b.isTrue, a.isFalse && b.isFalse, a.isUnknown || b.isUnknown⟩

/-- F/base_defs/logical_bool.hpp:69-73 `operator==`. -/
def eq (a b : LogicalBool) : LogicalBool :=
  { ofBool (a.isTrue == b.isTrue && a.isFalse == b.isFalse) with
    isUnknown := a.isUnknown || b.isUnknown }

/-- F/base_defs/logical_bool.hpp:75 `neither`. -/
def neither : LogicalBool := ⟨false, false, false⟩
/-- F/base_defs/logical_bool.hpp:75 `either`. -/
def either : LogicalBool := ⟨true, true, false⟩
/-- F/base_defs/logical_bool.hpp:75 `unknown`. -/
def unknown : LogicalBool := ⟨false, false, true⟩

end LogicalBool
end ELC
