import Verif.Throw.Model

/-
Arrays of elements that throw: what should happen, and what is left after an exception.
-/
namespace ELC.Throw.Spec

variable {A : Type}

/-- What the operations do to the list of the elements when nothing is thrown. -/
def edit (d : A) (vs : List A) : Op A → List A
  | .assignSize n => List.replicate n d
  | .assignFill n v => List.replicate n v
  | .assign ws => ws
  | .resize n => vs.take n ++ List.replicate (n - vs.length) d
  | .forwardResize n => List.replicate (n - vs.length) d ++ vs.drop (vs.length - n)
  | .insert pos n => vs.take pos ++ List.replicate n d ++ vs.drop pos
  | .insertFill pos n v => vs.take pos ++ List.replicate n v ++ vs.drop pos
  | .insertData pos ws => vs.take pos ++ ws ++ vs.drop pos
  | .pushBack v => vs ++ [v]
  | .pushBackMove v => vs ++ [v]
  | .append ws => vs ++ ws
  | .destroy => []

/-- The operations that give the array other elements. -/
def _root_.ELC.Throw.Op.assigns : Op A → Bool
  | .assignSize _ => true
  | .assignFill _ _ => true
  | .assign _ => true
  | _ => false

/-- The operations that add elements to those there are. -/
def _root_.ELC.Throw.Op.grows : Op A → Bool
  | .resize _ => true
  | .forwardResize _ => true
  | .insert _ _ => true
  | .insertFill _ _ _ => true
  | .insertData _ _ => true
  | .pushBack _ => true
  | .pushBackMove _ => true
  | .append _ => true
  | _ => false

/-- Positions of insertions are in the array. -/
def Valid (vs : List A) : Op A → Prop
  | .insert pos _ => pos ≤ vs.length
  | .insertFill pos _ _ => pos ≤ vs.length
  | .insertData pos _ => pos ≤ vs.length
  | _ => True

/-- How an operation works. -/
inductive Plan (A : Type) where
  /-- no constructor is called -/
  | quiet
  /-- a block with these elements is made; `may`: their constructor may throw -/
  | build (may : Bool) (new : List A)
  /-- the elements before `pos` are moved to a larger block, then those behind it, then these are made -/
  | ins (may : Bool) (pos : Nat) (new : List A)
  /-- elements at the front are destroyed, the last `n` moved to a smaller block -/
  | last (n : Nat)

def plan (T : Traits) (d : A) (vs : List A) : Op A → Plan A
  | .assignSize n => .build T.dflt (List.replicate n d)
  | .assignFill n v => .build T.copy (List.replicate n v)
  | .assign ws => .build T.copy ws
  | .resize n => if n ≤ vs.length then .quiet
    else if vs.length = 0 then .build T.dflt (List.replicate n d)
    else .ins T.dflt vs.length (List.replicate (n - vs.length) d)
  | .forwardResize n => if n = vs.length then .quiet
    else if n < vs.length then .last n
    else if vs.length = 0 then .build T.dflt (List.replicate n d)
    else .ins T.dflt 0 (List.replicate (n - vs.length) d)
  | .insert pos n => if n = 0 then .quiet else .ins T.dflt pos (List.replicate n d)
  | .insertFill pos n v => if n = 0 then .quiet else .ins T.copy pos (List.replicate n v)
  | .insertData pos ws => if ws.length = 0 then .quiet else .ins T.copy pos ws
  | .pushBack v => .ins T.copy vs.length [v]
  | .pushBackMove v => .ins T.move vs.length [v]
  | .append ws => .ins T.copy vs.length ws
  | .destroy => .quiet

/-- How often a constructor that may throw is called. -/
def count (may : Bool) (n : Nat) : Nat := if may then n else 0

def Plan.calls (T : Traits) (vs : List A) : Plan A → Nat
  | .quiet => 0
  | .build may new => count may new.length
  | .ins may _ new => count T.move vs.length + count may new.length
  | .last n => count T.move n

/-- Cells with elements, moved from, and without. -/
def lives (vs : List A) : List (Cell A) := vs.map .live
def husks (n : Nat) : List (Cell A) := List.replicate n .husk
def raws (n : Nat) : List (Cell A) := List.replicate n .raw

/-- The last `t` elements of a list, and those before them. -/
def lastN (t : Nat) (vs : List A) : List A := vs.drop (vs.length - t)
def butLast (t : Nat) (vs : List A) : List A := vs.take (vs.length - t)

/-- What is left of an array with the elements `vs` when the exception comes after `t` calls. -/
def Plan.left (T : Traits) (s : St A) (vs : List A) (t : Nat) : Plan A → St A
  | .quiet => s
  /- the block is lost, with the elements it has -/
  | .build _ new => { s with lost := (raws (new.length - t) ++ lives (lastN t new)) :: s.lost }
  | .ins _ pos new =>
    /- moving the elements before the position -/
    if t < count T.move pos then
      { s with arr := lives (butLast t (vs.take pos)) ++ husks t ++ lives (vs.drop pos)
               dead := s.dead ++ lives (lastN t (vs.take pos)) }
    /- moving those behind it -/
    else if t < count T.move vs.length then
      { s with arr := raws pos ++ lives (butLast (t - pos) (vs.drop pos)) ++ husks (t - pos)
               dead := s.dead ++ lives (vs.take pos) ++ lives (lastN (t - pos) (vs.drop pos)) }
    /- making the new ones -/
    else
      let t := t - count T.move vs.length
      { s with arr := lives (vs.take pos) ++ raws (new.length - t) ++ lives (lastN t new) ++ lives (vs.drop pos) }
  | .last n =>
    { s with arr := raws (vs.length - n) ++ lives (butLast t (lastN n vs)) ++ husks t
             dead := s.dead ++ lives (lastN t (lastN n vs)) }

/-- Every cell of the array has an element: only then can the array be destroyed. -/
def Whole (s : St A) : Prop := ∀ c ∈ s.arr, c.alive = true

end ELC.Throw.Spec
