import Verif.Origin.Model
/-! Where an allocation comes from: the place of the outermost operation. -/
namespace ELC.Origin.Spec
open ELC.Origin (Loc Op)

/-- The place of the outermost operation of which the place could be found; operations innermost first. -/
def place : List (Option Loc) → Option Loc
  | [] => none
  | c :: cs => match place cs with
    | some l => some l
    | none => c

/-- The operations that run and the places of all allocations so far, newest first. -/
structure State where
  ops : List (Option Loc)
  places : List (Option Loc)

def step (s : State) : Op → Option State
  | .enter c => some ⟨c :: s.ops, s.places⟩
  | .leave => match s.ops with
    | [] => none
    | _ :: cs => some ⟨cs, s.places⟩
  | .alloc _ => some ⟨s.ops, place s.ops :: s.places⟩

/-- A history in which as many operations begin as end. -/
def run (s : State) : List Op → Option State
  | [] => some s
  | o :: os => (step s o).bind fun s' => run s' os

/-- The outermost operation goes on during a part of the history. -/
def goesOn (s : State) : List Op → Prop
  | [] => True
  | o :: os => ∃ s', step s o = some s' ∧ place s'.ops ≠ none ∧ goesOn s' os

end ELC.Origin.Spec
