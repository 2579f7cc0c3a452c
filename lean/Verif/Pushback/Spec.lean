import Verif.Pushback.Model
/-! A stream that takes data back, as the data it will deliver. -/
namespace ELC.Pushback.Spec

open ELC.Pushback

variable {A : Type}

/-- What was put back and not read again, and what the wrapped stream has still to deliver. -/
structure View (A : Type) where
  back : List A
  source : List A
deriving DecidableEq

/-- What the next reads will deliver. -/
def View.all (v : View A) : List A := v.back ++ v.source

/-- Reading delivers first what was put back, then from the wrapped stream, which delivers at most `k`. -/
def read (v : View A) (size k : Nat) : List A × View A :=
  (v.back.take size ++ v.source.take (min k (size - v.back.length)),
    ⟨v.back.drop size, v.source.drop (min k (size - v.back.length))⟩)

def exec (v : View A) : Op A → List A × View A
  | .read size k => read v size k
  | .unread data => ([], ⟨data ++ v.back, v.source⟩)
  | .peek k =>
    let p := read v 1 k
    (p.1, ⟨p.1 ++ p.2.back, p.2.source⟩)

def run : View A → List (Op A) → List (List A) × View A
  | v, [] => ([], v)
  | v, op :: ops => ((exec v op).1 :: (run (exec v op).2 ops).1, (run (exec v op).2 ops).2)

/-- No more than 1024 elements are ever held back. -/
def Fits : View A → List (Op A) → Prop
  | _, [] => True
  | v, op :: ops => (∀ data, op = .unread data → v.back.length + data.length ≤ 1024) ∧ Fits (exec v op).2 ops

end ELC.Pushback.Spec
