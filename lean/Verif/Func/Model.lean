/-!
Function objects: `F/base/container/function/base_function_t.hpp:31-331` (the branch for compilers other than MSVC), over
`F/base_defs/function_base.hpp:77-108`.

A callable of the program is a type and a state, both numbers; what the types do is a parameter (`Kinds`).  Arguments and
results are numbers, `Ret_t()` is 0.  The counted pointers `_m` are those of `Verif.Ptr`; here only their counts are kept.
Actions of several threads come one after the other; the relaxed loads and stores of 315 and 328 see the latest value.
-/
namespace ELC.Func

/-- The callable types of a program.  Type 0 is `void`, the type of the empty function (109). -/
structure Kinds where
  /-- type, state and argument give the result and the new state -/
  call : Nat → Nat → Nat → Nat × Nat
  /-- the `==` of the type, if it has one (`equal.able<T>`) -/
  equal : Nat → Option (Nat → Nat → Bool)
  /-- the type converts to a pointer to a function (93) -/
  plain : Nat → Bool

/-- The data of functions: `func_data_t` (61-98), or `default_func_data_t` (103-114) for type 0.  `refs` is the count of
the pointers to it; `live` until it is destroyed. -/
structure Cell where
  ty : Nat
  st : Nat
  refs : Nat
  live : Bool
deriving DecidableEq, Repr

/-- The program: data, function variables (`none` after the end of their life), calls that have begun and not ended,
`_func_ptr_data_local` of each thread (311), `_func_ptr_data_gobal` (312), and the data destroyed so far. -/
structure State where
  cells : List Cell
  vars : List (Option Nat)
  running : List Nat
  here : Nat → Option Nat
  global : Option Nat
  freed : List Nat

/-- At the start there is `default_func_data` (116), which is never destroyed. -/
def init : State := ⟨[⟨0, 0, 1, true⟩], [], [], fun _ => none, none, []⟩

/-- A pointer to a function, as 324-330 gives it: a function of the program's own, with the state (the address) that
the callable has, or `_func_ptr_value`. -/
inductive Ptr where
  | own (ty st : Nat)
  | shared
deriving DecidableEq, Repr

/-- What the program sees of an action. -/
inductive Obs where
  | nothing
  | ret (v : Nat)
  | bool (b : Bool)
  | ptr (p : Ptr)
deriving DecidableEq, Repr

/-- What the program does. -/
inductive Op where
  /-- `function_t f;`, 267, 274, 275 -/
  | empty
  /-- `function_t f(callable);`, 277 -/
  | make (ty st : Nat)
  /-- `function_t f(x);`, 270 -/
  | copy (x : Nat)
  /-- `function_t f(move(x));`, 271 -/
  | move (x : Nat)
  /-- `x=y;` and `x=move(y);`, 282, 283 -/
  | assign (x y : Nat)
  /-- `x=callable;`, 292 -/
  | assignFn (x ty st : Nat)
  /-- `x=null_ptr;`, 284 -/
  | reset (x : Nat)
  /-- `swap(x,y);`, 263 -/
  | swap (x y : Nat)
  /-- the end of the life of `x` -/
  | drop (x : Nat)
  /-- `function_t f(x.deep_copy());`, 297 -/
  | deepCopy (x : Nat)
  /-- `bool(x)`, 299 -/
  | isSet (x : Nat)
  /-- `x==y`, 138 -/
  | same (x y : Nat)
  /-- `x==callable`, 142 -/
  | sameAs (x ty st : Nat)
  /-- `x.was_an<T>()`, 146 -/
  | wasAn (x ty : Nat)
  /-- `if(auto r=x.get_as<T>()) *r=state;`, 157 -/
  | edit (x ty st : Nat)
  /-- `x(a)`, 303, for a callable that does nothing with functions -/
  | call (x a : Nat)
  /-- `x(…)` begins; what it does comes next -/
  | enter (x : Nat)
  /-- the `k`th of the calls that run uses its state and returns -/
  | leave (k a : Nat)
  /-- thread `t` makes a pointer to a function from `x`, 324 -/
  | toPtr (t x : Nat)
  /-- thread `t` calls `_func_ptr_value`, 313 -/
  | callPtr (t a : Nat)
  /-- a call of a pointer to a function of the program's own -/
  | callOwn (ty st a : Nat)
deriving DecidableEq, Repr

/-- What comes of an action. -/
inductive Out where
  | done (s : State) (o : Obs)
  /-- undefined: data that is destroyed is used, or no data -/
  | undefined
  /-- the action is about a variable or call that does not exist: there is no such program -/
  | noSuch

/-- The variable's data. -/
def State.var (s : State) (x : Nat) : Option Nat := (s.vars[x]?).bind id

/-- ref_t.hpp:37 `add_ref`. -/
def State.add (s : State) (c : Nat) : State :=
  match s.cells[c]? with
  | some d => { s with cells := s.cells.set c { d with refs := d.refs + 1 } }
  | none => s

/-- ref_able.hpp:37-47 `cut_ref`: at zero the data is destroyed. -/
def State.cut (s : State) (c : Nat) : State :=
  match s.cells[c]? with
  | some d =>
    if d.refs - 1 = 0 then
      { s with cells := s.cells.set c { d with refs := 0, live := false }, freed := c :: s.freed }
    else { s with cells := s.cells.set c { d with refs := d.refs - 1 } }
  | none => s

/-- The variable's pointer is set: base_ptr_t.hpp:111, the new data counted, the old given up. -/
def State.point (s : State) (x c : Nat) : State :=
  match s.var x with
  | some old => { (s.add c).cut old with vars := s.vars.set x (some c) }
  | none => s

/-- A new variable for the data. -/
def State.push (s : State) (c : Nat) : State := { s.add c with vars := s.vars ++ [some c] }

/-- 258 `get<func_data_t<…>>(a)`: new data, and its place. -/
def State.new (s : State) (ty st : Nat) : State × Nat :=
  ({ s with cells := s.cells ++ [⟨ty, st, 0, true⟩] }, s.cells.length)

/-- get/defs.hpp:876 `copy_construct.able<T>` for `func_data_t`: false, since `ref_t` is `non_copyable` (ref_t.hpp:35). -/
def copyAble : Bool := false

/-- get/defs.hpp:874-893 `copy_get` of data, through instance_struct.hpp:36-44: a copy where the type can be copied,
and the data itself where it cannot. -/
def State.copyGet (s : State) (c : Nat) (d : Cell) : State × Nat := if copyAble then s.new d.ty d.st else (s, c)

/-- 108 and 85-87 `call`. -/
def invoke (K : Kinds) (d : Cell) (a : Nat) : Nat × Nat := if d.ty = 0 then (0, d.st) else K.call d.ty d.st a

/-- The call of the data at `c`; undefined when it is destroyed. -/
def State.callAt (K : Kinds) (s : State) (c a : Nat) : Out :=
  match s.cells[c]? with
  | some d =>
    if d.live then
      .done { s with cells := s.cells.set c { d with st := (invoke K d a).2 } } (.ret (invoke K d a).1)
    else .undefined
  | none => .undefined

/-- 79-84 and 113 `equal_with`, for data of one type. -/
def equalWith (K : Kinds) (ty st st' : Nat) : Bool :=
  if ty = 0 then true
  else match K.equal ty with
    | some e => e st st'
    | none => false

/-- The data of a variable, for an action that reads it. -/
def State.read (s : State) (x : Nat) (f : Nat → Cell → Out) : Out :=
  match s.var x with
  | some c =>
    match s.cells[c]? with
    | some d => if d.live then f c d else .undefined
    | none => .undefined
  | none => .noSuch

/-- One action. -/
def step (K : Kinds) (s : State) : Op → Out
  | .empty => .done (s.push 0) .nothing
  | .make ty st => if ty = 0 then .noSuch else .done ((s.new ty st).1.push (s.new ty st).2) .nothing
  | .copy x =>
    match s.var x with
    | some c => .done (s.push c) .nothing
    | none => .noSuch
  -- 271-273: an empty function is made and swapped with `x`
  | .move x =>
    match s.var x with
    | some c =>
      let s := s.push 0
      .done { s with vars := (s.vars.set (s.vars.length - 1) (some c)).set x (some 0) } .nothing
    | none => .noSuch
  -- 282-283 and 168: the base class has no assignment from a moved one
  | .assign x y =>
    match s.var x, s.var y with
    | some _, some c => .done (s.point x c) .nothing
    | _, _ => .noSuch
  | .assignFn x ty st =>
    if ty = 0 then .noSuch
    else match s.var x with
      | some _ => .done ((s.new ty st).1.point x (s.new ty st).2) .nothing
      | none => .noSuch
  | .reset x =>
    match s.var x with
    | some _ => .done (s.point x 0) .nothing
    | none => .noSuch
  -- 133, 263
  | .swap x y =>
    match s.var x, s.var y with
    | some a, some b => .done { s with vars := (s.vars.set x (some b)).set y (some a) } .nothing
    | _, _ => .noSuch
  | .drop x =>
    match s.var x with
    | some c => .done { s.cut c with vars := s.vars.set x none } .nothing
    | none => .noSuch
  | .deepCopy x => s.read x fun c d => .done ((s.copyGet c d).1.push (s.copyGet c d).2) .nothing
  | .isSet x =>
    match s.var x with
    | some c => .done s (.bool (c != 0))
    | none => .noSuch
  -- 47-49
  | .same x y =>
    s.read x fun _ d => s.read y fun _ e => .done s (.bool (d.ty == e.ty && equalWith K d.ty d.st e.st))
  -- 50-53
  | .sameAs x ty st =>
    if ty = 0 then .noSuch
    else s.read x fun _ d => .done s (.bool (d.ty == ty && equalWith K d.ty d.st st))
  -- 146-155: the data is thrown as a pointer to its type
  | .wasAn x ty => if ty = 0 then .noSuch else s.read x fun _ d => .done s (.bool (d.ty == ty))
  | .edit x ty st =>
    if ty = 0 then .noSuch
    else s.read x fun c d =>
      if d.ty = ty then .done { s with cells := s.cells.set c { d with st := st } } (.bool true) else .done s (.bool false)
  | .call x a =>
    match s.var x with
    | some c => s.callAt K c a
    | none => .noSuch
  | .enter x => s.read x fun c _ => .done { s with running := s.running ++ [c] } .nothing
  | .leave k a =>
    match s.running[k]? with
    | some c => { s with running := s.running.eraseIdx k }.callAt K c a
    | none => .noSuch
  -- 324-330
  | .toPtr t x =>
    s.read x fun c d =>
      if d.ty ≠ 0 ∧ K.plain d.ty then .done s (.ptr (.own d.ty d.st))
      else .done { s with here := fun u => if u = t then some c else s.here u, global := some c } (.ptr .shared)
  -- 313-319
  | .callPtr t a =>
    let c := match s.here t with
      | some c => some c
      | none => s.global
    match c with
    | some c => { s with here := fun u => if u = t then some c else s.here u }.callAt K c a
    | none => .undefined
  | .callOwn ty st a => if ty ≠ 0 ∧ K.plain ty then .done s (.ret (K.call ty st a).1) else .noSuch

/-- Several actions, with what is seen of each. -/
def run (K : Kinds) (s : State) : List Op → Option (State × List Obs)
  | [] => some (s, [])
  | op :: ops =>
    match step K s op with
    | .done s' o => (run K s' ops).map fun p => (p.1, o :: p.2)
    | _ => none

end ELC.Func
