import Verif.LogicalBool.Model
import Verif.Val.Model
/-!
Nodes of the interpreter: `F/core/base_def/node_like.hpp`, `F/core/special_values/`, `F/core/nodes/`.

A reference is one of the three constants or the number of a node on the heap.  What the values inside a node read is
written into the node itself; how values share is the area Val.  `none` as the answer of a comparison is undefined
behaviour: the payload of a binary node is taken for one of another type.
-/
namespace ELC.Node
open LogicalBool (ofBool neither either unknown)

/-- A pointer to a node: `the_void` (void.hpp:35-50), `nil` (nil.hpp:31-38), `t` (t.hpp:31-41), or another node. -/
inductive Ref where
  | void
  | nil
  | t
  | node (i : Nat)
deriving DecidableEq, Repr

/-- cons.hpp:44, expr.hpp:31, code_list.hpp:37: three types of pairs, each with a type info of its own. -/
inductive Pair where
  | cons
  | expr
  | codeList
deriving DecidableEq, Repr

/-- What a node is.  `bin T a` is `binary_node_t<T>` with payload `a` (binary_node_t.hpp:46-51); `func f` is
`base_binary_function_node` (base_binary_function_node.hpp:31-34); `common m` is `common_node` with the records of its map
(common_node.hpp:31-34).  `function_node` (function_node.hpp:31-43) does not compile in use and is left out. -/
inductive Obj where
  | pair (k : Pair) (car cdr : Ref)
  | common (m : List (Ref × Ref))
  | bin (T a : Nat)
  | func (f : Nat)
deriving DecidableEq, Repr

/-- What the program brings along: for each payload type whether it has `==` and what that says (binary_node_t.hpp:74,
81), whether it can be hashed and what that gives (62-63); `==` of functions, `none` when it throws
(base_binary_function_node.hpp:57-62); addresses' hashes (node_like.hpp:63) and the hashes of the constants
(void.hpp:48, nil.hpp:36, t.hpp:36). -/
structure Env where
  eqAble : Nat → Bool
  eq : Nat → Nat → Nat → Bool
  hashAble : Nat → Bool
  hash : Nat → Nat → Nat
  funcEq : Nat → Nat → Option Bool
  hashAddr : Nat → Nat
  hashVoid : Nat
  hashNil : Nat
  hashT : Nat

/-- The nodes that were made. -/
abbrev Heap := List Obj

/-- The node behind a number.  Numbers of nodes that were not made do not occur. -/
def Heap.obj (h : Heap) (i : Nat) : Obj := h[i]?.getD (.func 0)

/-! ### comparing for identity -/

/-- node_like.hpp:48 (36), base_constexpr.hpp:35 (`magic_number::god`, 72), void.hpp:39: `eq_level`; `equal_level`
(node_like.hpp:47, base_constexpr.hpp:34, void.hpp:38) is the same. -/
def level : Ref → Nat
  | .void => 2 ^ 64 - 1
  | .nil => 72
  | .t => 72
  | .node _ => 36

/-- node_like.hpp:46 `was_eq_with`, binary_node_t.hpp:73-85 for binary nodes: both checks of the type compare
`get_type_info`, which is the same for all payload types (34). -/
def wasEq (E : Env) (h : Heap) (x y : Ref) : Option LogicalBool :=
  match x with
  | .node i =>
    match h.obj i with
    | .bin T a =>
      if E.eqAble T then
        match y with
        | .node j =>
          match h.obj j with
          | .bin U b => if T = U then some (ofBool (E.eq T a b)) else none
          | _ => some (ofBool false)
        | _ => some (ofBool false)
      else some (ofBool (decide (x = y)))
    | _ => some (ofBool (decide (x = y)))
  | _ => some (ofBool (decide (x = y)))

/-- Both sides of `&&` of `logical_bool` are always evaluated. -/
def both (a b : Option LogicalBool) : Option LogicalBool := a.bind fun a => b.map fun b => a.and b

/-- node_like.hpp:78-87 `eq_with`; `==` of pointers and of values (114-116, value.hpp:158-165). -/
def eqWith (E : Env) (h : Heap) (x y : Ref) : Option LogicalBool :=
  if level x < level y then wasEq E h y x
  else if level y < level x then wasEq E h x y
  else both (wasEq E h x y) (wasEq E h y x)

/-! ### comparing for equality -/

/-- node_like.hpp:72, nil.hpp:37, t.hpp:37, void.hpp:49: `operator logical_bool`. -/
def truth : Ref → LogicalBool
  | .void => neither
  | .nil => ofBool false
  | .t => ofBool true
  | .node _ => ofBool true

/-- map/defs.hpp:124-128 `shrink`: records whose value is the default one (void) are removed. -/
def shrink (E : Env) (h : Heap) : List (Ref × Ref) → Option (List (Ref × Ref))
  | [] => some []
  | r :: m => (eqWith E h r.2 .void).bind fun b => (shrink E h m).map fun m => if b.toBool then m else r :: m

/-- map/defs.hpp:97-100 `operator[]const`; the bucket the record is in does not matter here (area Table). -/
def lookup (E : Env) (h : Heap) (k : Ref) : List (Ref × Ref) → Option Ref
  | [] => some .void
  | r :: m => (eqWith E h r.1 k).bind fun b => if b.toBool then some r.2 else lookup E h k m

/-- map/defs.hpp:138-141: the loop of `operator==`; it stops at the first difference. -/
def agree (E : Env) (h : Heap) (m : List (Ref × Ref)) : List (Ref × Ref) → Option Bool
  | [] => some true
  | r :: l => (lookup E h r.1 m).bind fun v => (eqWith E h v r.2).bind fun b =>
      if b.not.toBool then some false else agree E h m l

/-- map/defs.hpp:132-147 `operator==`. -/
def mapEq (E : Env) (h : Heap) (m n : List (Ref × Ref)) : Option Bool :=
  (shrink E h m).bind fun m => (shrink E h n).bind fun n =>
    if m.length = n.length then agree E h n m else some false

/-- `was_equal_with`: void.hpp:40-45, nil.hpp:34, t.hpp:34, cons.hpp:57-62, common_node.hpp:38-43, binary_node_t.hpp:86-88,
base_binary_function_node.hpp:53-63. -/
def wasEqual (E : Env) (h : Heap) (x y : Ref) : Option LogicalBool :=
  match x with
  | .void => (eqWith E h x y).map fun b => if b.toBool then either else neither
  | .nil => some (truth y).not
  | .t => some (truth y)
  | .node i =>
    match h.obj i with
    | .pair k a d =>
      match y with
      | .node j =>
        match h.obj j with
        | .pair k' a' d' => if k = k' then both (eqWith E h a a') (eqWith E h d d') else some (ofBool false)
        | _ => some (ofBool false)
      | _ => some (ofBool false)
    | .common m =>
      match y with
      | .node j =>
        match h.obj j with
        | .common n => (mapEq E h m n).map ofBool
        | _ => some (ofBool false)
      | _ => some (ofBool false)
    | .bin _ _ => wasEq E h x y
    | .func f =>
      match y with
      | .node j =>
        match h.obj j with
        | .func g =>
          match E.funcEq f g with
          | some b => some (ofBool b)
          | none => some unknown
        | _ => some (ofBool false)
      | _ => some (ofBool false)

/-- node_like.hpp:88-97 `equal_with`; `==` of nodes is this with the sides exchanged (101-103). -/
def equalWith (E : Env) (h : Heap) (x y : Ref) : Option LogicalBool :=
  if level x < level y then wasEqual E h y x
  else if level y < level x then wasEqual E h x y
  else both (wasEqual E h x y) (wasEqual E h y x)

/-- `operator hash_t`: node_like.hpp:63, binary_node_t.hpp:61-69, void.hpp:48, nil.hpp:36, t.hpp:36. -/
def hashOf (E : Env) (h : Heap) : Ref → Nat
  | .void => E.hashVoid
  | .nil => E.hashNil
  | .t => E.hashT
  | .node i =>
    match h.obj i with
    | .bin T a => if E.hashAble T then E.hash T a else E.hashAddr i
    | _ => E.hashAddr i

/-! ### lists -/

/-- cons.hpp:82-87 `make_list`: the rest is made first. -/
def makeList (h : Heap) : List Ref → Heap × Ref
  | [] => (h, .nil)
  | a :: l =>
    let (h, r) := makeList h l
    (h ++ [.pair .cons a r], .node h.length)

/-- cons.hpp:31-36, 64-69, base_constexpr.hpp:40: `car_of` of a pair and of a constant (the constant itself).  For other
nodes the index is a call of the program's or makes a record; not modelled, `none`. -/
def carOf (h : Heap) : Ref → Option Ref
  | .node i => match h.obj i with
    | .pair _ a _ => some a
    | _ => none
  | r => some r

/-- cons.hpp:34-36, 64-69, base_constexpr.hpp:40: `cdr_of`. -/
def cdrOf (h : Heap) : Ref → Option Ref
  | .node i => match h.obj i with
    | .pair _ _ d => some d
    | _ => none
  | r => some r

/-- Going through a list, `while(self){ car_of(self); self=cdr_of(self); }` as in code_list.hpp:47-50; `none` when it does
not come to an end within the bound. -/
def walk (h : Heap) : Nat → Ref → Option (List Ref)
  | 0, _ => none
  | fuel + 1, r =>
    if (truth r).toBool then
      (carOf h r).bind fun a => (cdrOf h r).bind fun d => (walk h fuel d).map fun l => a :: l
    else some []

/-! ### an index a pair does not have -/

/-- cons.hpp:64-77 `arec` with an index that is neither `t` nor `nil`, in the states of area Val; the values `x` and `y` are
`_car` and `_cdr`.  71: a common node.  72: its record for `t` is made (map/defs.hpp:89-96, a default value) and
`_car >>` it.  73: the same for `nil` and `_cdr`.  74, 79, node_like.hpp:67-70: `clear` puts a new value that holds void into
the place of both.  75: the record for the index, copied for the answer.  The new values are, in this order, the record of
`t`, the record of `nil`, the void, the record of the index and the answer. -/
def indexOps (n x y : Nat) : List Val.Op :=
  [.fresh, .shift x n, .fresh, .shift y (n + 1), .const 0, .shift (n + 2) x, .shift (n + 2) y, .fresh, .copy (n + 3)]

/-! ### kept nodes -/

/-- A node as far as `make_long_term_binary_node_from<T>` cares: a binary node of type `T`, or another one, with what its
`operator bool` says. -/
inductive Kept where
  | payload (a : Nat)
  | other (truth : Bool)
deriving DecidableEq, Repr

/-- The nodes, where a pointer to each ends (replacements followed; that they can be is C78), and the map
`long_term_binary_node_storager<T>` (binary_node_t.hpp:189-190) as its records. -/
structure Store where
  nodes : List Kept
  ends : List Nat
  map : List (Nat × Nat)
deriving DecidableEq, Repr

/-- A new node. -/
def Store.make (s : Store) (k : Kept) : Store × Nat :=
  (⟨s.nodes ++ [k], s.ends ++ [s.nodes.length], s.map⟩, s.nodes.length)

/-- What a pointer to node `i` is at now. -/
def Store.at (s : Store) (i : Nat) : Option Kept := s.ends[i]?.bind fun e => s.nodes[e]?

/-- binary_node_t.hpp:154-172 `const_use_by_ref_as<T>`, for exactly the type: the payload, or the default value. -/
def useAs (dflt : Nat) : Kept → Nat
  | .payload a => a
  | .other _ => dflt

/-- node_like.hpp:72-73: `bool(to)`. -/
def Kept.toBool : Kept → Bool
  | .payload _ => true
  | .other b => b

/-- The record of a payload in the map. -/
def find (eq : Nat → Nat → Bool) (a : Nat) : List (Nat × Nat) → Option Nat
  | [] => none
  | r :: m => if eq r.1 a then some r.2 else find eq a m

/-- Assignment to the record of a payload. -/
def put (eq : Nat → Nat → Bool) (a i : Nat) : List (Nat × Nat) → List (Nat × Nat)
  | [] => [(a, i)]
  | r :: m => if eq r.1 a then (r.1, i) :: m else r :: put eq a i m

/-- binary_node_t.hpp:191-197 `make_long_term_binary_node_from<T>`; `eq` and `dflt` are `==` and the default value of `T`.
A record just made by `[]` holds the void, whose `bool` is false: no record here.  `none` is the use of a failed reference
(map/defs.hpp:89-96): the record just made is not found again, because the payload does not equal itself. -/
def keep (eq : Nat → Nat → Bool) (dflt : Nat) (s : Store) (a : Nat) : Option (Store × Nat) :=
  let fresh := let (s, i) := s.make (.payload a); ({ s with map := put eq a i s.map }, i)
  match find eq a s.map with
  | none => if eq a a then some fresh else none
  | some i =>
    match s.at i with
    | none => some fresh
    | some k => some (if !k.toBool || !eq (useAs dflt k) a then fresh else (s, i))

/-- What the program does with such nodes. -/
inductive Do where
  /-- `make_long_term_binary_node_from<T>(a)` -/
  | keep (a : Nat)
  /-- another node is made -/
  | make (k : Kept)
  /-- the payload of node `i` is changed, `use_by_ref_as<T>(p) = a`, binary_node_t.hpp:150-153, or cleared, 104-109 -/
  | set (i a : Nat)
  /-- node `i` is replaced by node `j`, node_like.hpp:67-70; its payload is cleared first -/
  | replace (i j : Nat)
deriving DecidableEq, Repr

/-- The payload of node `e`, if it has one, is changed. -/
def Store.write (s : Store) (e a : Nat) : Store :=
  match s.nodes[e]? with
  | some (.payload _) => { s with nodes := s.nodes.set e (.payload a) }
  | _ => s

/-- One step, and the node that `keep` answered with.  Steps that name nodes that were not made, or the payload of another
node, do nothing.  Replacing a constant, which does nothing or ends the program (base_constexpr.hpp:44, t.hpp:40), is not
modelled. -/
def Store.step (eq : Nat → Nat → Bool) (dflt : Nat) (s : Store) : Do → Option (Store × Option Nat)
  | .keep a => (Node.keep eq dflt s a).map fun r => (r.1, some r.2)
  | .make k => some ((s.make k).1, none)
  | .set i a =>
    match s.ends[i]? with
    | none => some (s, none)
    | some e => some (s.write e a, none)
  | .replace i j =>
    match s.ends[i]?, s.ends[j]? with
    | some e, some f => some ({ s.write e dflt with ends := s.ends.map fun x => if x = e then f else x }, none)
    | _, _ => some (s, none)

/-- Several steps. -/
def Store.run (eq : Nat → Nat → Bool) (dflt : Nat) (s : Store) : List Do → Option Store
  | [] => some s
  | d :: ds => (s.step eq dflt d).bind fun r => Store.run eq dflt r.1 ds

/-- Before any node is made. -/
def Store.new : Store := ⟨[], [], []⟩

end ELC.Node
