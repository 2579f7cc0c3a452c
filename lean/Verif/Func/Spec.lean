import Verif.Func.Model

/-!
What functions are, without counts and without an end of life: names of callables.  A callable is a type and a state; several
functions may name one callable.  Callable 0 is the one that the empty functions name.
-/
namespace ELC.Func

/-- Callables, function variables, calls that run, and the callable that a pointer to a function stands for in each thread
and in threads that do not have one. -/
structure World where
  things : List (Nat × Nat)
  names : List (Option Nat)
  busy : List Nat
  mine : Nat → Option Nat
  last : Option Nat

/-- Only the empty callable. -/
def World.start : World := ⟨[(0, 0)], [], [], fun _ => none, none⟩

/-- The callable that the variable names. -/
def World.named (w : World) (x : Nat) : Option Nat := (w.names[x]?).bind id

/-- The result of calling, and the callable afterwards. -/
def World.use (K : Kinds) (w : World) (c a : Nat) : Option (World × Obs) :=
  match w.things[c]? with
  | some (0, _) => some (w, .ret 0)
  | some (ty, st) => some ({ w with things := w.things.set c (ty, (K.call ty st a).2) }, .ret (K.call ty st a).1)
  | none => none

/-- Two callables are equal when they are of one type, and the type's `==` says so; empty functions are equal. -/
def same (K : Kinds) (p q : Nat × Nat) : Bool := p.1 == q.1 && (p.1 == 0 || (K.equal p.1).any fun e => e p.2 q.2)

/-- The callable that the pointer to a function stands for in thread `t`. -/
def World.pointed (w : World) (t : Nat) : Option Nat :=
  match w.mine t with
  | some c => some c
  | none => w.last

/-- What each action means.  `none`: no such variable. -/
def World.act (K : Kinds) (w : World) : Op → Option (World × Obs)
  | .empty => some ({ w with names := w.names ++ [some 0] }, .nothing)
  | .make ty st =>
    if ty = 0 then none
    else some ({ w with things := w.things ++ [(ty, st)], names := w.names ++ [some w.things.length] }, .nothing)
  | .copy x => (w.named x).map fun c => ({ w with names := w.names ++ [some c] }, .nothing)
  -- what `deep_copy` does, not what it should do: see `deep_copy_refuted`
  | .deepCopy x => (w.named x).map fun c => ({ w with names := w.names ++ [some c] }, .nothing)
  | .move x => (w.named x).map fun c => ({ w with names := w.names.set x (some 0) ++ [some c] }, .nothing)
  | .assign x y =>
    (w.named x).bind fun _ => (w.named y).map fun c => ({ w with names := w.names.set x (some c) }, .nothing)
  | .assignFn x ty st =>
    if ty = 0 then none
    else (w.named x).map fun _ =>
      ({ w with things := w.things ++ [(ty, st)], names := w.names.set x (some w.things.length) }, .nothing)
  | .reset x => (w.named x).map fun _ => ({ w with names := w.names.set x (some 0) }, .nothing)
  | .swap x y =>
    (w.named x).bind fun a => (w.named y).map fun b =>
      ({ w with names := (w.names.set x (some b)).set y (some a) }, .nothing)
  | .drop x => (w.named x).map fun _ => ({ w with names := w.names.set x none }, .nothing)
  | .isSet x => (w.named x).map fun c => (w, .bool (c != 0))
  | .same x y =>
    (w.named x).bind fun c => (w.named y).bind fun d => (w.things[c]?).bind fun p => (w.things[d]?).map fun q =>
      (w, .bool (same K p q))
  | .sameAs x ty st =>
    if ty = 0 then none
    else (w.named x).bind fun c => (w.things[c]?).map fun p => (w, .bool (same K p (ty, st)))
  | .wasAn x ty =>
    if ty = 0 then none else (w.named x).bind fun c => (w.things[c]?).map fun p => (w, .bool (p.1 == ty))
  | .edit x ty st =>
    if ty = 0 then none
    else (w.named x).bind fun c => (w.things[c]?).map fun p =>
      if p.1 = ty then ({ w with things := w.things.set c (ty, st) }, .bool true) else (w, .bool false)
  | .call x a => (w.named x).bind fun c => w.use K c a
  | .enter x => (w.named x).map fun c => ({ w with busy := w.busy ++ [c] }, .nothing)
  | .leave k a => (w.busy[k]?).bind fun c => { w with busy := w.busy.eraseIdx k }.use K c a
  | .toPtr t x =>
    (w.named x).bind fun c => (w.things[c]?).map fun p =>
      if p.1 ≠ 0 ∧ K.plain p.1 then (w, .ptr (.own p.1 p.2))
      else ({ w with mine := fun u => if u = t then some c else w.mine u, last := some c }, .ptr .shared)
  | .callPtr t a =>
    (w.pointed t).bind fun c => { w with mine := fun u => if u = t then some c else w.mine u }.use K c a
  | .callOwn ty st a => if ty ≠ 0 ∧ K.plain ty then some (w, .ret (K.call ty st a).1) else none

/-- Several actions. -/
def World.acts (K : Kinds) (w : World) : List Op → Option (World × List Obs)
  | [] => some (w, [])
  | op :: ops => (w.act K op).bind fun p => (World.acts K p.1 ops).map fun q => (q.1, p.2 :: q.2)

/-- The program's state without counts. -/
def State.world (s : State) : World :=
  ⟨s.cells.map fun d => (d.ty, d.st), s.vars, s.running, s.here, s.global⟩

/-- A variable holds the data. -/
def State.Held (s : State) (c : Nat) : Prop := some c ∈ s.vars

/-- The data that `_func_ptr_value` would use in thread `t`. -/
def State.target (s : State) (t : Nat) : Option Nat :=
  match s.here t with
  | some c => some c
  | none => s.global

/-- The value of a function: type and state of what it names. -/
def World.value (w : World) (x : Nat) : Option (Nat × Nat) := (w.named x).bind fun c => w.things[c]?

/-- Thread `t` makes a pointer from something else than a pointer to a function: the action by which it gives up the one it
made before. -/
def Remakes (K : Kinds) (s : State) (t : Nat) : Op → Prop
  | .toPtr u x => u = t ∧ ∀ p, s.world.value x = some p → ¬ (p.1 ≠ 0 ∧ K.plain p.1 = true)
  | _ => False

/-- Every action of `ops`, in the state it is done in, is not one that `P` describes. -/
def Without (K : Kinds) (P : State → Op → Prop) : State → List Op → Prop
  | _, [] => True
  | s, op :: ops => ¬ P s op ∧ ∀ s' o, step K s op = .done s' o → Without K P s' ops

/-- A thread makes a pointer from something else than a pointer to a function, or `t` calls one. -/
def Passive (K : Kinds) (t : Nat) (s : State) (op : Op) : Prop :=
  (∃ u, Remakes K s u op) ∨ ∃ a, op = .callPtr t a

/-- Thread `t` makes such a pointer or calls one. -/
def Newcomer (K : Kinds) (t : Nat) (s : State) (op : Op) : Prop := Remakes K s t op ∨ ∃ a, op = .callPtr t a

/-- What a step shows, without the state after it. -/
def Out.seen : Out → Option Obs
  | .done _ o => some o
  | _ => none

end ELC.Func
