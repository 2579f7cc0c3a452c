import Verif.Names.Model

/-
Scopes: the name space the program is in and those around it.
-/
namespace ELC.Names.Spec

/-- The name spaces from `p` outwards, and what is found outside the last: nil or void. -/
inductive Scopes (h : Heap) : Ref → List Ref → Ref → Prop
  | outside {p : Ref} : truthy p = false → Scopes h p [] p
  | inside {p e : Ref} {ps : List Ref} : truthy p = true → Scopes h (look h p .up) ps e → Scopes h p (p :: ps) e

/-- A name is declared in a name space: it has a value there that is true, or a type. -/
def Declares (h : Heap) (x : Name) (p : Ref) : Prop := truthy (look h p x) = true ∨ truthy (typeOf h p x) = true

instance (h : Heap) (x : Name) (p : Ref) : Decidable (Declares h x p) := by unfold Declares; infer_instance

/-- The innermost name space that declares the name, or else what is outside. -/
def innermost (h : Heap) (x : Name) (ps : List Ref) (e : Ref) : Ref :=
  (ps.find? fun p => decide (Declares h x p)).getD e

/-- A computation that may go on for ever comes to the result `a`. -/
def Yields {A : Type} (f : Nat → Option A) (a : A) : Prop := ∃ n, f n = some a

/-- What a program does: enters and leaves name spaces. -/
inductive Move where
  | enter (x : Name)
  | leave
deriving DecidableEq, Repr

/-- Where it is afterwards. -/
def moves (h : Heap) (fuel : Nat) (now : Ref) : List Move → Option Ref
  | [] => some now
  | .enter x :: r => (enter h fuel now x).bind fun p => moves h fuel p r
  | .leave :: r => (leave h fuel now).bind fun p => moves h fuel p r

end ELC.Names.Spec
