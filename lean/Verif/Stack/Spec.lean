import Verif.Stack.Model

/-
Stacks as lists: what programs that use several of them rely on.
-/
namespace ELC.Stack.Spec

variable {A : Type}

/-- What a program does with its stacks, which have numbers.  New cells get the addresses the program is given. -/
inductive Op (A : Type) where
  | add (k : Nat) (x : A) (i : Nat)
  | find (k : Nat) (p : A → Bool)
  | autoFind (k : Nat) (p : A → Bool)
  | remove (k : Nat) (p : A → Bool)
  | each (k : Nat)
  | clear (k : Nat)
  | assign (k l : Nat) (is : List Nat)
  | moveTop (k l : Nat)
  | swap (k l : Nat)

/-- What it is told. -/
inductive Ans (A : Type) where
  | done
  | ref (i : Option Nat)
  | removed (b : Bool)
  | items (xs : List A)

/-- The lists: for every stack its items with their addresses, from the top. -/
abbrev Lists (A : Type) := Nat → List (Nat × A)

/-- An address that no item has. -/
def Fresh (r : Lists A) (i : Nat) : Prop := ∀ l, i ∉ (r l).map Prod.fst

/-- What happens to the lists. -/
inductive Step (r : Lists A) : Op A → Ans A → Lists A → Prop
  | add {k i : Nat} {x : A} : Fresh r i → Step r (.add k x i) .done (Function.update r k ((i, x) :: r k))
  | find {k : Nat} {p : A → Bool} : Step r (.find k p) (.ref (((r k).find? fun c => p c.2).map Prod.fst)) r
  /-- the item found is on top afterwards -/
  | autoFind {k i : Nat} {x : A} {p : A → Bool} : (r k).find? (fun c => p c.2) = some (i, x) →
      Step r (.autoFind k p) (.ref (some i)) (Function.update r k ((i, x) :: (r k).eraseP fun c => p c.2))
  | autoFindNone {k : Nat} {p : A → Bool} : (r k).find? (fun c => p c.2) = none → Step r (.autoFind k p) (.ref none) r
  /-- the first item that matches is taken out -/
  | remove {k : Nat} {p : A → Bool} : Step r (.remove k p) (.removed ((r k).any fun c => p c.2))
      (Function.update r k ((r k).eraseP fun c => p c.2))
  | each {k : Nat} : Step r (.each k) (.items ((r k).map Prod.snd)) r
  | clear {k : Nat} : Step r (.clear k) .done (Function.update r k [])
  | assign {k l : Nat} {is : List Nat} : is.Nodup → is.length = (r l).length → (∀ i ∈ is, Fresh r i) →
      Step r (.assign k l is) .done (Function.update r k (is.zip ((r l).map Prod.snd)))
  | moveTop {k l i : Nat} {x : A} {rest : List (Nat × A)} : k ≠ l → r k = (i, x) :: rest →
      Step r (.moveTop k l) .done (Function.update (Function.update r k rest) l ((i, x) :: r l))
  | swap {k l : Nat} : Step r (.swap k l) .done (Function.update (Function.update r k (r l)) l (r k))

/-- Several steps. -/
inductive Steps : Lists A → List (Op A) → List (Ans A) → Lists A → Prop
  | nil {r : Lists A} : Steps r [] [] r
  | cons {r r' r'' : Lists A} {o : Op A} {os : List (Op A)} {a : Ans A} {as : List (Ans A)} :
      Step r o a r' → Steps r' os as r'' → Steps r (o :: os) (a :: as) r''

/-- The same with the stacks in memory. -/
structure State (A : Type) where
  mem : Mem A
  stacks : Nat → St

def State.new : State A := ⟨fun _ => none, fun _ => St.empty⟩

def step (s : State A) : Op A → Option (Ans A × State A)
  | .add k x i => some (.done, ⟨(add s.mem (s.stacks k) x i).1, Function.update s.stacks k (add s.mem (s.stacks k) x i).2⟩)
  | .find k p => (find p s.mem (s.stacks k)).map fun r => (.ref r, s)
  | .autoFind k p => (autoFind p s.mem (s.stacks k)).map fun r => (.ref r.1, ⟨r.2.1, Function.update s.stacks k r.2.2⟩)
  | .remove k p => (remove p s.mem (s.stacks k)).map fun r => (.removed r.1, ⟨r.2.1, Function.update s.stacks k r.2.2⟩)
  | .each k => (forEach s.mem (s.stacks k).top).map fun r => (.items r, s)
  | .clear k => (clear s.mem (s.stacks k)).map fun r => (.done, ⟨r.1, Function.update s.stacks k r.2⟩)
  | .assign k l is => (assign s.mem (s.stacks k) (s.stacks l) is).map fun r => (.done, ⟨r.1, Function.update s.stacks k r.2⟩)
  | .moveTop k l => (moveTop s.mem (s.stacks k) (s.stacks l)).map fun r =>
      (.done, ⟨r.1, Function.update (Function.update s.stacks k r.2.1) l r.2.2⟩)
  /- base_stack.hpp:58-64 `swap_with`, and `operator=` of a temporary -/
  | .swap k l => some (.done, ⟨s.mem, Function.update (Function.update s.stacks k (s.stacks l)) l (s.stacks k)⟩)

def run (s : State A) : List (Op A) → Option (List (Ans A) × State A)
  | [] => some ([], s)
  | o :: os => (step s o).bind fun r => (run r.2 os).map fun q => (r.1 :: q.1, q.2)

end ELC.Stack.Spec
