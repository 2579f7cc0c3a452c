import Verif.Stdwrap.Model
/-! Files, without error bits. -/
namespace ELC.Stdwrap.Spec
open ELC.Stdwrap (Op Dir Res OutOp)

variable {A : Type}

/-- A text and a position in it. -/
structure File (A : Type) where
  text : List A
  pos : Nat
deriving DecidableEq, Repr

/-- Where a seek leads to. -/
def target (f : File A) (d : Dir) (off : Int) : Int :=
  match d with
  | .beg => off
  | .cur => f.pos + off
  | .fin => f.text.length + off

/-- Reading, telling and seeking; `none` for a seek out of the text and for a read of more than there is. -/
def exec (f : File A) : Op → Option (Res A × File A)
  | .read n => if f.pos + n ≤ f.text.length then some (.text ((f.text.drop f.pos).take n), { f with pos := f.pos + n }) else none
  | .tell => some (.num f.pos, f)
  | .seek d off =>
    if 0 ≤ target f d off ∧ target f d off ≤ f.text.length
    then some (.num (target f d off), { f with pos := (target f d off).toNat }) else none
  | .seekTo p => if 0 ≤ p ∧ p ≤ f.text.length then some (.done, { f with pos := p.toNat }) else none
  | .sync => some (.done, f)

def run : File A → List Op → Option (List (Res A) × File A)
  | f, [] => some ([], f)
  | f, o :: os => (exec f o).bind fun r => (run r.2 os).map fun q => (r.1 :: q.1, q.2)

/-- Writing over what is there, and on at the end; `none` where the text gets longer than `cap`. -/
def outExec (cap : Nat) (f : File A) : OutOp A → Option (Option Int × File A)
  | .write d =>
    if f.pos + d.length ≤ cap
    then some (none, ⟨f.text.take f.pos ++ d ++ f.text.drop (f.pos + d.length), f.pos + d.length⟩) else none
  | .tell => some (some f.pos, f)
  | .seek d off =>
    if 0 ≤ target f d off ∧ target f d off ≤ f.text.length
    then some (some (target f d off), { f with pos := (target f d off).toNat }) else none
  | .seekTo p => if 0 ≤ p ∧ p ≤ f.text.length then some (none, { f with pos := p.toNat }) else none

def outRun (cap : Nat) : File A → List (OutOp A) → Option (List (Option Int) × File A)
  | f, [] => some ([], f)
  | f, o :: os => (outExec cap f o).bind fun r => (outRun cap r.2 os).map fun q => (r.1 :: q.1, q.2)

end ELC.Stdwrap.Spec
