import Verif.Gc.Model
/-!
What garbage collection is about, apart from how it is done.
-/
namespace ELC.Gc

/-- Object `i` exists. -/
def Heap.Living (h : Heap) (i : Nat) : Prop := ∃ o, h[i]? = some o ∧ o.life = .living

/-- How many pointers in living objects point to `b`. -/
def held : Heap → Nat → Nat
  | [], _ => 0
  | o :: h, b => (if o.life = .living then o.edges.count b else 0) + held h b

/-- A state of the program in which pointers are counted: `out b` pointers outside of the objects point to `b`. -/
structure Counted (out : Nat → Nat) (h : Heap) : Prop where
  /-- no destructor is running -/
  calm : ∀ (i : Nat) (o : Obj), h[i]? = some o → o.life ≠ .dying
  /-- pointers point to objects that exist -/
  inner : ∀ (i : Nat) (o : Obj), h[i]? = some o → o.life = .living → ∀ b ∈ o.edges, h.Living b
  outer : ∀ b, 0 < out b → h.Living b
  /-- counts are right -/
  refs : ∀ (b : Nat) (o : Obj), h[b]? = some o → o.life = .living → o.refs = out b + held h b

/-- The objects that can be reached from the objects `s`. -/
inductive Reach (h : Heap) (s : List Nat) : Nat → Prop
  | start {a} : a ∈ s → Reach h s a
  | step {a b : Nat} {o : Obj} : Reach h s a → h[a]? = some o → b ∈ o.edges → Reach h s b

/-- An object that exists and cannot be reached. -/
def Garbage (h : Heap) (s : List Nat) (b : Nat) : Prop := h.Living b ∧ ¬ Reach h s b

/-- The program's `map_and_mark_for_gc` mark what can be reached. -/
def Marks (h : Heap) (s : List Nat) (marked : Nat → Bool) : Prop := ∀ b, marked b = true ↔ Reach h s b

end ELC.Gc
