import Verif.Links.Model
/-! What a list holds after a history. -/
namespace ELC.Links.Spec

open ELC.Links

/-- The nodes alive, in the order in which they were added. -/
def after (l : List Nat) : Op → List Nat
  | .add n => l ++ [n]
  | .destroy n => l.filter (· ≠ n)

def live (ops : List Op) : List Nat := ops.foldl after []

/-- A node is added when it is new (0 and 1 are the ends), and destroyed when it is there. -/
def ValidOp (l : List Nat) : Op → Prop
  | .add n => 2 ≤ n ∧ n ∉ l
  | .destroy n => n ∈ l

def Valid : List Nat → List Op → Prop
  | _, [] => True
  | l, op :: ops => ValidOp l op ∧ Valid (after l op) ops

/-- What can be seen of a list that holds exactly `l`: the walks in both directions, and emptiness. -/
structure Shows (s : Store) (l : List Nat) : Prop where
  walk : ∀ fuel, l.length < fuel → walk s fuel = some l
  walkBack : ∀ fuel, l.length < fuel → walkBack s fuel = some l.reverse
  empty : empty s = some (decide (l = []))

end ELC.Links.Spec
