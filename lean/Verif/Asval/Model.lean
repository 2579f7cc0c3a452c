import Mathlib.Tactic.NormNum
import Mathlib.Tactic.SplitIfs
/-!
Native integers and characters as values of the interpreter: the branches for numbers of `as_ptr`,
F/core/base_def/decl.hpp:104-111, and getting them back with `use_as`, F/core/nodes/binary_node_t.hpp:154-176.

Simplifications: the types of a 64-bit machine where `int64_t` is `long`; the nodes are those just made (what becomes of them
later is in the area `Node`).
-/
namespace ELC.Asval

/-- The native integer types. -/
inductive Ty where
  | bool | char | schar | uchar | char8 | char16 | char32 | wchar
  | short | ushort | int | uint | long | ulong | longLong | ulongLong
deriving DecidableEq, Repr

/-- `signed_type`: F/base_defs/arithmetic_type_info_prover_decl.hpp:107-109, by the rules of the language. -/
def Ty.signed : Ty → Bool
  | .char | .schar | .wchar | .short | .int | .long | .longLong => true
  | _ => false

/-- The number of bits that hold the value. -/
def Ty.bits : Ty → Nat
  | .bool => 1
  | .char | .schar | .uchar | .char8 => 8
  | .char16 | .short | .ushort => 16
  | .char32 | .wchar | .int | .uint => 32
  | .long | .ulong | .longLong | .ulongLong => 64

/-- The conversion of a number to an integer type: the language keeps it modulo the number of values. -/
def convert (T : Ty) (v : Int) : Int :=
  if T.signed then
    let u := v % 2 ^ T.bits
    if u < 2 ^ (T.bits - 1) then u else u - 2 ^ T.bits
  else v % 2 ^ T.bits

/-- decl.hpp:104-111: the type of the payload; S/default_data_type.hpp:32-40 `char_t` is `char32_t`, `int_t` is `int64_t`,
`uint_t` is `uint64_t`. -/
def storedAs (T : Ty) : Ty :=
  if T = .char32 then .char32
  else if T.signed then .long
  else .ulong

/-- A binary node: the type of its payload and the payload. -/
structure Node where
  ty : Ty
  payload : Int
deriving DecidableEq, Repr

/-- decl.hpp:104-111 `as_ptr(a)` of a number of type `T`: the parameter of `make_long_term_binary_node_from` converts it. -/
def asNode (T : Ty) (v : Int) : Node := ⟨storedAs T, convert (storedAs T) v⟩

/-- binary_node_t.hpp:154-176 `use_as<T>(p)` for a type that is no class: the payload if the type is the same, else the
default value, zero. -/
def useAs (T : Ty) (n : Node) : Int := if n.ty = T then n.payload else 0

end ELC.Asval
