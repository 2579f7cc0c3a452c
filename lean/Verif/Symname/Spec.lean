import Verif.Symname.Model
/-! What names should be: plain values. -/
namespace ELC.Symname.Spec
open ELC.Symname (Op Demangled)

/-- The texts of the objects that exist. -/
abbrev State := Nat → Option (List Nat)

/-- `s` with another object at one place. -/
def put (s : State) (v : Nat) (t : Option (List Nat)) : State := fun u => if u = v then t else s u

/-- The characters a fresh name has. -/
def made (gnu : Bool) (original : Option (List Nat)) : Demangled → Option (List Nat)
  | .ok t rest => if gnu then some (t ++ 0 :: rest) else original
  | .fail => if gnu then none else original

/-- A legal step: objects are constructed once, and used while they exist; a copy has the text of its original, unless
memory runs out, and an object that was moved from is empty. -/
def step (gnu : Bool) (s : State) : Op → Option State
  | .make v o r => if s v = none then (made gnu o r).map fun t => put s v (some t) else none
  | .copy v u alloc =>
    if s v = none then (s u).map fun t => put s v (some (if alloc || !gnu then t else [])) else none
  | .move v u => if s v = none then (s u).map fun t => put (put s v (some t)) u (some []) else none
  | .drop v => (s v).map fun _ => put s v none

/-- A legal program. -/
def run (gnu : Bool) (s : State) : List Op → Option State
  | [] => some s
  | o :: os => (step gnu s o).bind fun s' => run gnu s' os

end ELC.Symname.Spec
