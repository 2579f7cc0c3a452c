import Verif.Cast.Model
/-! What it means that an object is a `T`. -/
namespace ELC.Cast

/-- The object of class `c` has a sub-object of type `T` at `p` (itself, for the empty path); `pub` says whether every
step to it is public. -/
inductive Has : Cls → Path → Nat → Bool → Prop where
  | self (n : Nat) (bs : List (Bool × Cls)) : Has (.mk n bs) [] n true
  | base (n : Nat) (bs : List (Bool × Cls)) (i : Nat) (pub : Bool) (b : Cls) (p : Path) (T : Nat) (q : Bool) :
      bs[i]? = some (pub, b) → Has b p T q → Has (.mk n bs) (i :: p) T (pub && q)

/-- As a `T`, an object of class `c` is its sub-object at `p`: the only one of type `T`, and public. -/
def Is (c : Cls) (T : Nat) (p : Path) : Prop := Has c p T true ∧ ∀ q pub, Has c q T pub → q = p

/-- The rules of the language for declarations of classes: bases are classes that are not final, and no class is among
its own bases. -/
structure Declared (E : Types) (c : Cls) : Prop where
  base : ∀ p T pub, Has c p T pub → p ≠ [] → E.isClass T = true ∧ E.isFinal T = false
  once : ∀ p pub, Has c p c.name pub → p = []

end ELC.Cast
