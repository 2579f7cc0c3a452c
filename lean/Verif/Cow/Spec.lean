import Verif.Cow.Model
/-! Handles as independent values. -/
namespace ELC.Cow.Spec

open ELC.Cow

variable {V : Type}

/-- Every handle with a value of its own, and the results of comparisons. -/
structure Plain (V : Type) where
  values : List (Option V)
  out : List Bool
deriving DecidableEq

def start : Plain V := ⟨[], []⟩

def value (p : Plain V) (x : Nat) : Option V := (p.values[x]?).bind id

/-- What each operation does to plain values.  A reference changes the value it was taken from; that is outside this
description. -/
def exec (eq : V → V → Bool) (p : Plain V) : Op V → Option (Plain V)
  | .make v | .makeFrom v => some { p with values := p.values ++ [some v] }
  | .copy y => (value p y).map fun v => { p with values := p.values ++ [some v] }
  | .assign x y | .assignValue x y =>
    (value p x).bind fun _ => (value p y).map fun v => { p with values := p.values.set x (some v) }
  | .swap x y =>
    (value p x).bind fun a => (value p y).map fun b => { p with values := (p.values.set x (some b)).set y (some a) }
  | .modify x f => (value p x).map fun v => { p with values := p.values.set x (some (f v)) }
  | .equal x y => (value p x).bind fun a => (value p y).map fun b => { p with out := p.out ++ [eq a b] }
  | .drop x => (value p x).map fun _ => { p with values := p.values.set x none }
  | .keep _ | .write _ _ => none

def run (eq : V → V → Bool) : Plain V → List (Op V) → Option (Plain V)
  | p, [] => some p
  | p, op :: ops => (exec eq p op).bind fun p => run eq p ops

/-- What can be read through the handles. -/
def reads (s : State V) : List (Option V) := s.handles.map fun h => h.bind fun c => (cell s.cells c).map Cell.value

/-- The state shows the plain values. -/
def Shows (s : State V) (p : Plain V) : Prop := reads s = p.values ∧ s.out = p.out

/-- Storage is kept exactly while handles share it. -/
def NoLeak (s : State V) : Prop := ∀ c o, s.cells[c]? = some o → o.refs = s.handles.count (some c)

/-- Not the constructor from arguments. -/
def NoMakeFrom : Op V → Prop
  | .makeFrom _ => False
  | _ => True

end ELC.Cow.Spec
