import Verif.Node.Model
import Verif.Val.Spec
/-!
What users expect of nodes.
-/
namespace ELC.Node

/-- The types and functions of the program behave: `==` is an equivalence and equal payloads have equal hashes. -/
structure Lawful (E : Env) : Prop where
  refl : ∀ T a, E.eq T a a = true
  symm : ∀ T a b, E.eq T a b = true → E.eq T b a = true
  trans : ∀ T a b c, E.eq T a b = true → E.eq T b c = true → E.eq T a c = true
  hash : ∀ T a b, E.eq T a b = true → E.hash T a = E.hash T b
  able : ∀ T, E.eqAble T = true → E.hashAble T = true

/-- Functions can be compared, and their `==` is an equivalence. -/
structure FuncLawful (E : Env) : Prop where
  refl : ∀ f, E.funcEq f f = some true
  symm : ∀ f g, E.funcEq f g = some true → E.funcEq g f = some true
  trans : ∀ f g k, E.funcEq f g = some true → E.funcEq g k = some true → E.funcEq f k = some true

/-- The same node, or binary nodes of one type with equal payloads. -/
def Same (E : Env) (h : Heap) (x y : Ref) : Prop :=
  x = y ∨ ∃ i j T a b, x = .node i ∧ y = .node j ∧ h.obj i = .bin T a ∧ h.obj j = .bin T b ∧ E.eqAble T = true ∧
    E.eq T a b = true

/-- Binary nodes of two types, at least one of which can be compared. -/
def Mixed (E : Env) (h : Heap) (x y : Ref) : Prop :=
  ∃ i j T U a b, x = .node i ∧ y = .node j ∧ h.obj i = .bin T a ∧ h.obj j = .bin U b ∧ T ≠ U ∧
    (E.eqAble T = true ∨ E.eqAble U = true)

/-- No two binary nodes are of different types, unless these types have no `==`. -/
def OneType (E : Env) (h : Heap) : Prop := ∀ x y, ¬ Mixed E h x y

/-- A comparison says yes. -/
def Yes (a : Option LogicalBool) : Prop := ∃ b, a = some b ∧ b.toBool = true

/-- What the records of a map give for a key: the value of the first record with that key, or void. -/
inductive Gives (E : Env) (h : Heap) (k : Ref) : List (Ref × Ref) → Ref → Prop where
  | nil : Gives E h k [] .void
  | here {k' v m} : Same E h k' k → Gives E h k ((k', v) :: m) v
  | there {k' v m w} : ¬ Same E h k' k → Gives E h k m w → Gives E h k ((k', v) :: m) w

/-- No two records of a map have the same key. -/
def Distinct (E : Env) (h : Heap) (m : List (Ref × Ref)) : Prop := m.Pairwise fun r s => ¬ Same E h r.1 s.1

/-- Two maps give the same for every key. -/
def SameMap (E : Env) (h : Heap) (m n : List (Ref × Ref)) : Prop :=
  ∀ k v w, Gives E h k m v → Gives E h k n w → Same E h v w

/-- All maps on the heap have each key once. -/
def MapsDistinct (E : Env) (h : Heap) : Prop := ∀ i m, h.obj i = .common m → Distinct E h m

/-- Two nodes have equal contents: parts that are the same, maps that give the same, the same payload, equal functions. -/
def EqualNodes (E : Env) (h : Heap) (i j : Nat) : Prop :=
  match h.obj i, h.obj j with
  | .pair k a d, .pair k' a' d' => k = k' ∧ Same E h a a' ∧ Same E h d d'
  | .common m, .common n => SameMap E h m n
  | .bin _ _, .bin _ _ => Same E h (.node i) (.node j)
  | .func f, .func g => E.funcEq f g = some true ∧ E.funcEq g f = some true
  | _, _ => False

/-- What `==` of nodes says: `t` equals every node but `nil` and void, the other constants only themselves. -/
def Equal (E : Env) (h : Heap) : Ref → Ref → Prop
  | .void, .void => True
  | .nil, .nil => True
  | .t, .t => True
  | .t, .node _ => True
  | .node _, .t => True
  | .node i, .node j => EqualNodes E h i j
  | _, _ => False

/-- `r` is a list of exactly these nodes: pairs whose `cdr` is the rest, `nil` at the end. -/
inductive IsList (h : Heap) : Ref → List Ref → Prop where
  | nil : IsList h .nil []
  | cons {i a d l} : h.obj i = .pair .cons a d → IsList h d l → IsList h (.node i) (a :: l)

/-- Node `i` is a binary node with payload `a` now. -/
def Store.Holds (s : Store) (i a : Nat) : Prop := s.at i = some (.payload a)

end ELC.Node
