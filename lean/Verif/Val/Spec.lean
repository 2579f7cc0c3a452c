import Verif.Val.Model
/-!
What a user expects of values: a value is a name for a place; a place holds a pointer that can be changed, one that
cannot, or nothing.
-/
namespace ELC.Val.Spec
open ELC.Val (Data Op)

/-- A name: the place, and whether the name itself has been used since its place was last given up for another. -/
structure Name where
  place : Nat
  seen : Bool
deriving DecidableEq, Repr

/-- The names in the order they were made, the places in the order they were made. -/
structure Names where
  names : List Name
  places : List Data
deriving DecidableEq, Repr

def start : Names := ⟨[], []⟩

/-- A new name for a new place. -/
def Names.fresh (s : Names) (d : Data) : Names := ⟨s.names ++ [⟨s.places.length, true⟩], s.places ++ [d]⟩

/-- All names of place `a` become names of place `b`. -/
def Names.merge (s : Names) (a b : Nat) : Names :=
  if a = b then s else { s with names := s.names.map fun n => if n.place = a then ⟨b, false⟩ else n }

/-- One operation and what a read gives; `none`: no such name.  `strict` also asks that a name whose place is given up for
another has been used since the last time this happened to its place, and that the place is not one of those that hold
nothing (`special_init`). -/
def step (strict : Bool) (s : Names) : Op → Option (Names × Option Nat)
  | .fresh => some (s.fresh (.var 0), none)
  | .null => some (s.fresh .null, none)
  | .const p => some (s.fresh (.const p), none)
  | .copy x => do
    let n ← s.names[x]?
    return ({ s with names := s.names ++ [n] }, none)
  | .assign x p => do
    let n ← s.names[x]?
    let d ← s.places[n.place]?
    return (⟨s.names.set x ⟨n.place, true⟩, s.places.set n.place (d.set p)⟩, none)
  | .read x => do
    let n ← s.names[x]?
    let d ← s.places[n.place]?
    return ({ s with names := s.names.set x ⟨n.place, true⟩ }, some d.get)
  | .refTo x z => do
    let n ← s.names[x]?
    let m ← s.names[z]?
    let d ← s.places[n.place]?
    if strict && (!n.seen || d = .null) then none
    else
      let s := s.merge n.place m.place
      return ({ s with names := s.names.set x ⟨m.place, true⟩ }, none)
  | .unRef x => do
    let n ← s.names[x]?
    let d ← s.places[n.place]?
    return (⟨s.names.set x ⟨s.places.length, true⟩, s.places ++ [d]⟩, none)
  | .reRefTo x z => do
    let _ ← s.names[x]?
    let m ← s.names[z]?
    return ({ s with names := s.names.set x ⟨m.place, true⟩ }, none)
  | .shift z x => do
    let n ← s.names[x]?
    let m ← s.names[z]?
    let d ← s.places[n.place]?
    if strict && (!n.seen || d = .null) then none
    else return (s.merge n.place m.place, none)

/-- A history, and what its reads give. -/
def run (strict : Bool) (s : Names) : List Op → Option (Names × List Nat)
  | [] => some (s, [])
  | o :: os => do
    let (s, a) ← step strict s o
    let (s, as) ← run strict s os
    return (s, a.toList ++ as)

/-- What a name stands for now. -/
def Names.reads (s : Names) (x : Nat) : Option Nat := do
  let n ← s.names[x]?
  let d ← s.places[n.place]?
  return d.get

end ELC.Val.Spec

namespace ELC.Val

/-- Reading value `x` of the program in this state gives node `v`. -/
def Reads (s : State) (x v : Nat) : Prop := ∃ s', step s (.read x) = .ok (s', some v)

/-- The elements that a code list evaluates, in order, when it starts at element `k` and comes to an end. -/
inductive Runs (l : List Stmt) : Nat → List Stmt → Prop where
  | ret {k} : l[k]? = some .ret → Runs l k []
  | goto {k j t} : l[k]? = some (.goto j) → Runs l j t → Runs l k t
  | next {k st t} : l[k]? = some st → st ≠ .ret → (∀ j, st ≠ .goto j) → k + 1 < l.length → Runs l (k + 1) t →
      Runs l k (st :: t)
  | last {k st} : l[k]? = some st → st ≠ .ret → (∀ j, st ≠ .goto j) → k + 1 = l.length → Runs l k [st]
  | behind {k} : l[k]? = none → Runs l k [.node nilNode]

/-- Following the replacements from cell `i` comes past cell `j`. -/
inductive Visits (cells : List Cell) : Nat → Nat → Prop where
  | here {i} : Visits cells i i
  | step {i j c} : cells[i]? = some c → c.fwd ≠ i → Visits cells c.fwd j → Visits cells i j

/-- The value hangs on the shared null data. -/
def OnNull (s : State) (x : Nat) : Prop := ∃ i, s.vals[x]? = some i ∧ Visits s.cells i 0

/-- What the evaluation of elements one after the other leaves, when it began with `cur`; `s` is the state at the beginning.
A node counts as itself, a call as the value it answered with.  The last one is what counts, except that calls answering
with values that hang on the null data count as what came before them. -/
inductive Outcome (s : State) : Nat → List Stmt → Nat → Prop where
  | nil {cur} : Outcome s cur [] cur
  | node {cur q t v} : Outcome s q t v → Outcome s cur (.node q :: t) v
  | call {cur x w t v} : ¬ OnNull s x → Reads s x w → Outcome s w t v → Outcome s cur (.call x :: t) v
  | callNull {cur x t v} : OnNull s x → Outcome s cur t v → Outcome s cur (.call x :: t) v

/-- The states that programs come to. -/
inductive Reach : State → Prop where
  | init : Reach init
  | step {s o s' a} : Reach s → step s o = .ok (s', a) → Reach s'
  | eval {s l fuel s'} : Reach s → evalList s l fuel = .ok s' → Reach s'

end ELC.Val
