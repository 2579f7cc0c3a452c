/-!
Values of the interpreter: `F/core/base_def/value.hpp`, `F/base/memory/other/replace_able.hpp`, the replacement part of
`F/base/memory/ptr/ptr/base_ptr_t.hpp`, and `F/core/nodes/code_list.hpp`.

A value is a pointer to a data object (a cell here).  A cell can be replaced by another one; pointers to it notice this
when they are read.  Cells are numbered in the order they are made; cell 0 is the one `null_data` object.  Nodes are
numbers, node 0 is the void (`null_ptr`).  When a cell is given back is not modelled (area Ptr is about that), nor are
value data types written by users.
-/
namespace ELC.Val

/-- value.hpp:67-76 `null_data_t`, 78-89 `constexpr_data_t`, 91-102 `variable_data_t`. -/
inductive Data where
  | null
  | const (p : Nat)
  | var (p : Nat)
deriving DecidableEq, Repr

/-- A data object and its `replace_able` part: `fwd` is `_m`, its own number while not replaced
(replace_able.hpp:35-42). -/
structure Cell where
  data : Data
  fwd : Nat
deriving DecidableEq, Repr

/-- value.hpp:73, 86, 99 `get_value`. -/
def Data.get : Data → Nat
  | .null => 0
  | .const p => p
  | .var p => p

/-- value.hpp:72, 85, 98 `be_set`. -/
def Data.set (p : Nat) : Data → Data
  | .null => .null
  | .const q => .const q
  | .var _ => .var p

/-- What cannot go on. -/
inductive Fault where
  /-- following replacements does not end -/
  | endless
  /-- the program names a value it has not made -/
  | noValue
  /-- the evaluation was cut off by the bound on its steps -/
  | cutOff
deriving DecidableEq, Repr

/-- replace_able.hpp:43-48 `get_ptr`.  The code recurses; here a bound is given, running out of it is `endless`. -/
def follow (cells : List Cell) : Nat → Nat → Except Fault Nat
  | 0, _ => .error .endless
  | fuel + 1, i =>
    match cells[i]? with
    | none => .error .endless
    | some c => if c.fwd = i then .ok i else follow cells fuel c.fwd

/-- replace_able.hpp:43-48 `get_ptr`: a chain that visits more cells than there are does not end. -/
def getPtr (cells : List Cell) (i : Nat) : Except Fault Nat := follow cells (cells.length + 1) i

/-- replace_able.hpp:49-55 `be_replace_as`. -/
def beReplaceAs (cells : List Cell) (i p : Nat) : List Cell :=
  match cells[i]? with
  | none => cells
  | some c => cells.set i { c with fwd := p }

/-- The cells and the values the program has: each value is the `_to` of its pointer (value.hpp:104). -/
structure State where
  cells : List Cell
  vals : List Nat
deriving DecidableEq, Repr

/-- value.hpp:67-76: at the start there is `null_data`. -/
def init : State := ⟨[⟨.null, 0⟩], []⟩

/-- A new cell; `get<variable_data_t>(…)`, `get<constexpr_data_t>(…)`. -/
def State.make (s : State) (d : Data) : State × Nat :=
  (⟨s.cells ++ [⟨d, s.cells.length⟩], s.vals⟩, s.cells.length)

/-- A new value. -/
def State.push (s : State) (i : Nat) : State := { s with vals := s.vals ++ [i] }

/-- What a program does with its values.  Values are named by the order in which they were made. -/
inductive Op where
  /-- `value x;` value.hpp:106 -/
  | fresh
  /-- `value x{special_init};` value.hpp:107 -/
  | null
  /-- `value x(p);` value.hpp:108-109 -/
  | const (p : Nat)
  /-- `value y(x);` value.hpp:112-113 -/
  | copy (x : Nat)
  /-- `x = p;` value.hpp:116-122 -/
  | assign (x p : Nat)
  /-- `ptr(x)`, `&x` value.hpp:124-136 -/
  | read (x : Nat)
  /-- `x.ref_to(z);` value.hpp:138-140 -/
  | refTo (x z : Nat)
  /-- `x.un_ref();` value.hpp:141-143 -/
  | unRef (x : Nat)
  /-- `x.re_ref_to(z);` value.hpp:144-146 -/
  | reRefTo (x z : Nat)
  /-- `z >> x;` value.hpp:147-150 -/
  | shift (z x : Nat)
deriving DecidableEq, Repr

/-- The pointer of a value. -/
def State.to (s : State) (x : Nat) : Except Fault Nat :=
  match s.vals[x]? with
  | none => .error .noValue
  | some i => .ok i

/-- base_ptr_t.hpp:131-134 `get` with `replace_check` (115-119): the pointer is moved to the replacement. -/
def State.get (s : State) (x : Nat) : Except Fault (State × Nat) := do
  let i ← s.to x
  let r ← getPtr s.cells i
  return ({ s with vals := s.vals.set x r }, r)

/-- What a cell says it holds. -/
def State.value (s : State) (r : Nat) : Nat :=
  match s.cells[r]? with
  | none => 0
  | some c => c.data.get

/-- One operation, and what a read gives.
`refTo` and `shift` take their argument by value, so the argument's own pointer stays as it is.  `do_replace`
(base_ptr_t.hpp:120-129) replaces the cell the pointer has, not the one it would be moved to; in `shift` the pointer that
is reset belongs to the copy. -/
def step (s : State) : Op → Except Fault (State × Option Nat)
  | .fresh => let (s, i) := s.make (.var 0); .ok (s.push i, none)
  | .null => .ok (s.push 0, none)
  | .const p => let (s, i) := s.make (.const p); .ok (s.push i, none)
  | .copy x => do
    let i ← s.to x
    return (s.push i, none)
  | .assign x p => do
    let (s, r) ← s.get x
    match s.cells[r]? with
    | none => return (s, none)
    | some c => return ({ s with cells := s.cells.set r { c with data := c.data.set p } }, none)
  | .read x => do
    let (s, r) ← s.get x
    return (s, some (s.value r))
  | .refTo x z => do
    let j ← s.to z
    let i ← s.to x
    let p ← getPtr s.cells j
    return (⟨beReplaceAs s.cells i p, s.vals.set x p⟩, none)
  | .unRef x => do
    let (s, r) ← s.get x
    match s.cells[r]? with
    | none => return (s, none)
    | some c =>
      match c.data with
      | .null => return (s, none)
      | d =>
        let (s, n) := s.make d
        return ({ s with vals := s.vals.set x n }, none)
  | .reRefTo x z => do
    let j ← s.to z
    let _ ← s.to x
    let p ← getPtr s.cells j
    return ({ s with vals := s.vals.set x p }, none)
  | .shift z x => do
    let j ← s.to z
    let i ← s.to x
    let p ← getPtr s.cells j
    return ({ s with cells := beReplaceAs s.cells i p }, none)

/-- A history, and what its reads gave. -/
def run (s : State) : List Op → Except Fault (State × List Nat)
  | [] => .ok (s, [])
  | o :: os => do
    let (s, a) ← step s o
    let (s, as) ← run s os
    return (s, a.toList ++ as)

/-- An element of a code list, by what its evaluation does: a node that evaluates to itself
(node_like_using_value_func_defs.hpp:32-37), a call that answers with one of the program's values, a jump to an element, a
return (code_list.hpp:53-58, core_runtime_internal_helper.hpp:38-41).  Code lists inside code lists are in area Eval. -/
inductive Stmt where
  | node (p : Nat)
  | call (x : Nat)
  | goto (k : Nat)
  | ret
deriving DecidableEq, Repr

/-- `eval(car_of(self))` when it answers with a value: the cell of that value. -/
def evalStmt (s : State) : Stmt → Except Fault (State × Option Nat)
  | .node p => let (s, i) := s.make (.const p); .ok (s, some i)
  | .call x => do
    let i ← s.to x
    return (s, some i)
  | _ => .ok (s, none)

/-- The node `nil` (node 1 here). -/
def nilNode : Nat := 1

/-- code_list.hpp:43-60 `code_list::be_eval`, from element `k` of the list on.  The local value `aret` is
`value{special_init}`: its pointer is to cell 0 and stays there, because `>>` works on a copy.  `nil` ends the list, but a
jump behind the end evaluates `nil` first. -/
def evalFrom (l : List Stmt) : Nat → State → Nat → Except Fault State
  | 0, _, _ => .error .cutOff
  | fuel + 1, s, k =>
    match l[k]?.getD (.node nilNode) with
    | .ret => .ok s
    | .goto j => evalFrom l fuel s j
    | st => do
      let (s, v) ← evalStmt s st
      match v with
      | none => return s
      | some j => do
        let p ← getPtr s.cells j
        let s := { s with cells := beReplaceAs s.cells 0 p }
        if k + 1 < l.length then evalFrom l fuel s (k + 1) else return s

/-- code_list.hpp:43-60: the answer is `aret`, a new value of the program. -/
def evalList (s : State) (l : List Stmt) (fuel : Nat) : Except Fault State := do
  let s ← evalFrom l fuel s 0
  return s.push 0

end ELC.Val
