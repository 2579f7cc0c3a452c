import Mathlib.Data.List.Basic

/-
Name spaces of the interpreter.  Models F/namespace/defs.hpp:34-86, with F/core/nodes/common_node.hpp:45,
F/core/nodes/binary_node_t.hpp:93-98, F/core/nodes/base_binary_function_node.hpp:65 and
F/core/special_values/base_constexpr.hpp:40 (`operator[]`), F/core/base_def/node_like.hpp:72-73, 111-113 (what is true).

Simplifications: a name is the name itself, not a node with its text (equal texts are the same node: C86); name spaces are
not destroyed while `_namespace_now`, a weak pointer, points to them; nodes are those whose `operator[]` does not change
them (no pairs) and is not that of a text.
-/
namespace ELC.Names

/-- The names that matter: `..`, `.`, `.symbol_type_map`, and all others by number. -/
inductive Name where
  | up
  | self
  | types
  | sym (n : Nat)
deriving DecidableEq, Repr

/-- A pointer to a node: one of the three constants, or another node. -/
inductive Ref where
  | void
  | nil
  | t
  | node (i : Nat)
deriving DecidableEq, Repr

/-- What a node is: a table (common_node.hpp:31), a value without `operator[]` of its own, or a function. -/
inductive Obj where
  | table (m : List (Name × Ref))
  | atom
  | func
deriving DecidableEq, Repr

/-- The nodes. -/
abbrev Heap := List Obj

/-- `(*p)[x]`: common_node.hpp:45 (a name that is not in the table is void, value.hpp:104, map/defs.hpp:89-96),
binary_node_t.hpp:93-98, base_binary_function_node.hpp:65, base_constexpr.hpp:40.  The number of a node that was not made
does not occur. -/
def look (h : Heap) (p : Ref) (x : Name) : Ref :=
  match p with
  | .node i =>
    match h[i]? with
    | some (.table m) => (m.lookup x).getD .void
    | some .atom => .node i
    | _ => .void
  | c => c

/-- node_like.hpp:72-73, nil.hpp:37, t.hpp:37, void.hpp:49, logical_bool.hpp:57: as a condition, nil and void are false. -/
def truthy : Ref → Bool
  | .void => false
  | .nil => false
  | _ => true

/-- namespace/defs.hpp:38-40 `get_symbol_type_map(p)[x]`. -/
def typeOf (h : Heap) (p : Ref) (x : Name) : Ref := look h (look h p .types) x

/-- namespace/defs.hpp:57-62: the loop of `get_symbol_namespace` from `p`, at most `fuel` times; `none`: it goes on. -/
def search (h : Heap) (x : Name) : Nat → Ref → Option Ref
  | 0, _ => none
  | fuel + 1, p =>
    if truthy p && !truthy (look h p x) && !truthy (typeOf h p x) then search h x fuel (look h p .up)
    else some p

/-- namespace/defs.hpp:64-69 `has_symbol`. -/
def hasSymbol (h : Heap) (fuel : Nat) (now : Ref) (x : Name) : Option Bool :=
  (search h x fuel now).map fun p => truthy (look h p x) || truthy (typeOf h p x)

/-- namespace/defs.hpp:71-73 `get_symbol`. -/
def getSymbol (h : Heap) (fuel : Nat) (now : Ref) (x : Name) : Option Ref :=
  (search h x fuel now).map fun p => look h p x

/-- namespace/defs.hpp:75-77 `get_symbol_type`. -/
def getSymbolType (h : Heap) (fuel : Nat) (now : Ref) (x : Name) : Option Ref :=
  (search h x fuel now).map fun p => typeOf h p x

/-- namespace/defs.hpp:80-82 `inter_namespace`: the new `_namespace_now`. -/
def enter (h : Heap) (fuel : Nat) (now : Ref) (x : Name) : Option Ref := getSymbol h fuel now x

/-- namespace/defs.hpp:85 `leave_namespace`. -/
def leave (h : Heap) (fuel : Nat) (now : Ref) : Option Ref := enter h fuel now .up

/-- `m[x]=v` of a table. -/
def put (m : List (Name × Ref)) (x : Name) (v : Ref) : List (Name × Ref) :=
  match m with
  | [] => [(x, v)]
  | (y, w) :: r => if y = x then (y, v) :: r else (y, w) :: put r x v

/-- `(*p)[x]=v`: only a table can be written; the value another node answers with is a constant, which ignores the
assignment (value.hpp:80-91). -/
def store (h : Heap) (p : Ref) (x : Name) (v : Ref) : Heap :=
  match p with
  | .node i =>
    match h[i]? with
    | some (.table m) => h.set i (.table (put m x v))
    | _ => h
  | _ => h

/-- `get_symbol(x)=v`. -/
def assign (h : Heap) (fuel : Nat) (now : Ref) (x : Name) (v : Ref) : Option Heap :=
  (search h x fuel now).map fun p => store h p x v

/-- namespace/defs.hpp:41-56, the constructor: the root is node 0, its type map node 1, the text `void` node 2; the names
`t`, `nil` and `void` are 0, 1 and 2. -/
def initial : Heap :=
  [.table [(.up, .void), (.self, .node 0), (.sym 0, .t), (.sym 1, .nil), (.sym 2, .void), (.types, .node 1)],
    .table [(.sym 2, .node 2)], .atom]

end ELC.Names
