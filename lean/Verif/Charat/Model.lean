/-!
Characters of strings as values of the interpreter: `F/_multi/string_arec_as_value.hpp`, with `use_as` of
`F/core/nodes/binary_node_t.hpp:154-176` and `arec_t` of `F/string/defs.hpp:327-341`.

Nodes are numbers; a node that nobody holds is given back and its number has no payload then.  The characters of a string are a
list; that the shared representations of strings behave like lists is the matter of C63.  Characters are `char_t`, which are numbers below
2^32.
-/
namespace ELC.Charat

/-- The payload of a node, as far as these functions see a difference: `int_t`, `uint_t`, `char_t`, `string`, or anything
else (a floating point number, a symbol, nothing). -/
inductive Payload where
  | int (i : Int)
  | uint (n : Nat)
  | char (c : Nat)
  | str (s : List Nat)
  | other
deriving DecidableEq, Repr

/-- All nodes. -/
abbrev Heap := Nat → Option Payload

/-- binary_node_t.hpp:154-176 `use_as<int_t>`: nodes of other types count as the default value. -/
def useInt : Payload → Int
  | .int i => i
  | _ => 0

/-- binary_node_t.hpp:154-176 `use_as<uint_t>`. -/
def useUint : Payload → Nat
  | .uint n => n
  | _ => 0

/-- binary_node_t.hpp:154-176 `use_as<char_T>`. -/
def useChar : Payload → Nat
  | .char c => c
  | _ => 0

/-- `size_t(i)`. -/
def toSize (i : Int) : Nat := (i % 2 ^ 64).toNat

/-- string_arec_as_value.hpp:40-42: the index. -/
def index (p : Payload) : Nat :=
  let i := toSize (useInt p)
  if i = 0 then useUint p else i

/-- string_arec_as_value.hpp:43-46 `arec_data_t`: a pointer into the node with the string, and the index.  It does not hold
the node. -/
structure Ref where
  node : Nat
  i : Nat
deriving DecidableEq, Repr

/-- string_arec_as_value.hpp:39-56 `arec_as_value`, by binary_node_t.hpp:93-98 for the string of node `n`. -/
def arec (n : Nat) (p : Payload) : Ref := ⟨n, index p⟩

/-- string_arec_as_value.hpp:51 `get_value`: a new node with the character.  `none`: undefined, because the node is gone or the
string has no such character. -/
def get (h : Heap) (r : Ref) : Option Payload :=
  match h r.node with
  | some (.str s) => (s[r.i]?).map .char
  | _ => none

/-- Replace one node. -/
def put (h : Heap) (n : Nat) (p : Option Payload) : Heap := fun m => if m = n then p else h m

/-- string_arec_as_value.hpp:50 `be_set`. -/
def beSet (h : Heap) (r : Ref) (p : Payload) : Option Heap :=
  match h r.node with
  | some (.str s) => if r.i < s.length then some (put h r.node (some (.str (s.set r.i (useChar p))))) else none
  | _ => none

/-- string_arec_as_value.hpp:47, 52 `copy`. -/
def copy (r : Ref) : Ref := r

/-- What can happen to strings while values for their characters exist. -/
inductive Op where
  /-- a value for character `i` of the string of node `n` is assigned the payload `p` -/
  | assign (n : Nat) (idx p : Payload)
  /-- the string of node `n` is cleared (binary_node_t.hpp:104-109) -/
  | clear (n : Nat)
  /-- nobody holds node `n` any longer -/
  | release (n : Nat)
deriving DecidableEq, Repr

/-- One of them. -/
def step (h : Heap) : Op → Option Heap
  | .assign n idx p => beSet h (arec n idx) p
  | .clear n =>
    match h n with
    | some (.str _) => some (put h n (some (.str [])))
    | _ => none
  | .release n => some (put h n none)

/-- A history. -/
def run (h : Heap) : List Op → Option Heap
  | [] => some h
  | o :: r => (step h o).bind fun h => run h r

end ELC.Charat
