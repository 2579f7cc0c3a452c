import Mathlib.Tactic.Common
/-!
Using the payload of a node as a `T`, F/core/nodes/binary_node_t.hpp:112-182, when the payload's class derives from others.

Simplifications: inheritance that is not virtual; payload types without `const` or `volatile`; a type is its number.
That the call `throw_self_ptr` of `was_an` may be made is taken for granted (binary_node_base_t, 36-44, names the
other two functions as friends, the first one twice, and not `was_an`).
-/
namespace ELC.Cast

/-- A type: its number and, for a class, its direct bases, each with whether it is public. -/
inductive Cls where
  | mk (name : Nat) (bases : List (Bool × Cls))

/-- The number of a type. -/
def Cls.name : Cls → Nat
  | .mk n _ => n

/-- Where a sub-object lies in an object: which direct base, which of its direct bases, and so on. -/
abbrev Path := List Nat

/-- A sub-object: its class, whether all steps to it are public, and where it lies. -/
structure Part where
  name : Nat
  pub : Bool
  path : Path
deriving DecidableEq, Repr

/-- A part of the direct base number `i`, seen from the class that has it. -/
def Part.under (i : Nat) (pub : Bool) (p : Part) : Part := ⟨p.name, pub && p.pub, i :: p.path⟩

mutual
/-- All sub-objects of an object, and the object itself. -/
def parts : Cls → List Part
  | .mk n bs => ⟨n, true, []⟩ :: partsOf 0 bs
/-- The sub-objects of the direct bases from number `i` on. -/
def partsOf : Nat → List (Bool × Cls) → List Part
  | _, [] => []
  | i, (pub, b) :: bs => (parts b).map (Part.under i pub) ++ partsOf (i + 1) bs
end

/-- The rule of the language for `catch(T*)` and a thrown pointer to an object of class `c` (binary_node_t.hpp:70-72,
120-126): `c` is `T`, or `T` is a base of it that is public and not ambiguous.  The caught pointer is to that sub-object.
`none`: the next handler, for `void*`, catches it. -/
def catchPtr (T : Nat) (c : Cls) : Option Path :=
  match (parts c).filter (·.name = T) with
  | [p] => if p.pub then some p.path else none
  | _ => none

/-- What is known of types: binary_node_t.hpp:119, 138, 161 `is_class_v<T>`, `is_final_v<T>`. -/
structure Types where
  isClass : Nat → Bool
  isFinal : Nat → Bool

/-- A node: one with a payload of class `c`, or another one. -/
inductive Node where
  | bin (c : Cls)
  | other

/-- binary_node_t.hpp:131-149 `maybe_fail_use_by_ref_as<T>(p)`: the sub-object referred to; `none`: `note::fail`. -/
def maybeUse (E : Types) (T : Nat) : Node → Option Path
  | .bin c =>
    if c.name = T then some []
    else if E.isClass T && !E.isFinal T then catchPtr T c
    else none
  | .other => none

/-- binary_node_t.hpp:112-130 `was_an<T>(p)`. -/
def wasAn (E : Types) (T : Nat) : Node → Bool
  | .bin c =>
    if c.name = T then true
    else if E.isClass T && !E.isFinal T then
      match catchPtr T c with
      | some _ => true
      | none => false
    else false
  | .other => false

/-- What a reference that `const_use_by_ref_as<T>` gives is to. -/
inductive Target where
  | sub (p : Path)
  | default
deriving DecidableEq, Repr

/-- binary_node_t.hpp:154-172 `const_use_by_ref_as<T>(p)`: the sub-object, else `const_default_value_of<T>`. -/
def constUse (E : Types) (T : Nat) : Node → Target
  | .bin c =>
    if c.name = T then .sub []
    else if E.isClass T && !E.isFinal T then
      match catchPtr T c with
      | some p => .sub p
      | none => .default
    else .default
  | .other => .default

end ELC.Cast
