import Verif.Arr.Model
/-!
What arrays are to their user: named lists.  A cell is an element, an element whose value is unspecified because it was moved
from, or, for types without initialisation, a place not yet written.
-/
namespace ELC.Arr.Spec

variable {A : Type}

/-- Named lists. -/
abbrev Arrays (A : Type) := Nat → List (Cell A)

/-- What a new element holds. -/
def fresh (k : Kind) (d : A) : Cell A :=
  match k with
  | .plain => .raw
  | _ => .live d

/-- One list changed. -/
def put (a : Arrays A) (x : Nat) (l : List (Cell A)) : Arrays A := fun y => if y = x then l else a y

/-- `l` with `m` put in before position `pos`. -/
def inserted (l : List (Cell A)) (pos : Nat) (m : List (Cell A)) : List (Cell A) := l.take pos ++ m ++ l.drop pos

/-- What each operation means; `none` if the caller may not ask for it: a position outside the list, a size too small, or a
source inside the array that is being changed. -/
def exec (k : Kind) (d : A) (a : Arrays A) : Op A → Option (Arrays A)
  | .sized x n => some (put a x (List.replicate n (fresh k d)))
  | .filled x n v => some (put a x (List.replicate n (.live v)))
  | .listed x vs => some (put a x (vs.map .live))
  | .viewed x y i n => if i + n ≤ (a y).length then some (put a x (((a y).drop i).take n)) else none
  | .assign x y => some (put a x (a y))
  | .swap x y => some (fun z => if z = x then a y else if z = y then a x else a z)
  | .clear x => some (put a x [])
  | .resize x n _ =>
    some (put a x ((a x).take n ++ List.replicate (n - (a x).length) (fresh k d)))
  | .forwardResize x n _ =>
    some (put a x (List.replicate (n - (a x).length) (fresh k d) ++ (a x).drop ((a x).length - n)))
  | .insert x pos n _ =>
    if pos ≤ (a x).length then some (put a x (inserted (a x) pos (List.replicate n (fresh k d)))) else none
  | .insertFill x pos n v _ =>
    if pos ≤ (a x).length then some (put a x (inserted (a x) pos (List.replicate n (.live v)))) else none
  | .insertFillFrom x pos n y i _ =>
    match (a y)[i]? with
    | some c => if pos ≤ (a x).length ∧ x ≠ y ∧ c.alive then some (put a x (inserted (a x) pos (List.replicate n c))) else none
    | none => none
  | .insertData x pos vs _ =>
    if pos ≤ (a x).length then some (put a x (inserted (a x) pos (vs.map .live))) else none
  | .insertFrom x pos n y i _ =>
    if pos ≤ (a x).length ∧ x ≠ y ∧ i + n ≤ (a y).length then
      some (put a x (inserted (a x) pos (((a y).drop i).take n))) else none
  | .insertResize x pos vs t _ =>
    if pos ≤ (a x).length ∧ (a x).length + vs.length ≤ t then
      some (put a x (inserted (a x) pos (vs.map .live) ++ List.replicate (t - ((a x).length + vs.length)) (fresh k d)))
    else none
  | .forwardInsertResize x pos vs t _ =>
    if pos ≤ (a x).length ∧ (a x).length + vs.length ≤ t ∧ vs ≠ [] then
      some (put a x (List.replicate (t - ((a x).length + vs.length)) (fresh k d) ++ inserted (a x) pos (vs.map .live)))
    else none
  | .push x v _ => some (put a x (a x ++ [.live v]))
  | .pushFrom x y i _ =>
    match (a y)[i]? with
    | some c => if x ≠ y then some (put a x (a x ++ [c])) else none
    | none => none
  | .pushMove x y i _ =>
    match (a y)[i]? with
    | some c =>
      if x ≠ y then some (put (put a x (a x ++ [c])) y (if k.managed then (a y).set i .husk else a y)) else none
    | none => none
  | .append x vs _ => some (put a x (a x ++ vs.map .live))
  | .appendFrom x y _ => if x ≠ y then some (put a x (a x ++ a y)) else none
  | .write x i v => if i < (a x).length then some (put a x ((a x).set i (.live v))) else none

/-- A history of operations. -/
def run (k : Kind) (d : A) : Arrays A → List (Op A) → Option (Arrays A)
  | a, [] => some a
  | a, op :: ops => match exec k d a op with
    | none => none
    | some a => run k d a ops

end ELC.Arr.Spec
