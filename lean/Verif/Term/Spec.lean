import Verif.Term.Model

/-! What reading and writing may do to a terminal. -/
namespace ELC.Term.Spec

/-- Nobody reads. -/
def idle (m : Mode) : St := ⟨m, fun _ => none⟩

/-- The mode in which characters are read one by one: without lines, and on Linux without echo. -/
def raw (s : Sys) (m : Mode) : Mode :=
  match s with
  | .windows => ⟨false, m.echo, m.escapes, m.rest⟩
  | .linux => ⟨false, false, m.escapes, m.rest⟩

/-- Schedules in which a read that begins during another one also ends during it. -/
inductive Nested : List Ev → Prop where
  | nil : Nested []
  | read (t : Nat) (inner rest : List Ev) (hi : Nested inner) (hr : Nested rest) :
      Nested (Ev.enter t :: inner ++ Ev.leave t :: rest)

/-- Reads one after the other. -/
def oneByOne (ts : List Nat) : List Ev := ts.flatMap fun t => [Ev.enter t, Ev.leave t]

end ELC.Term.Spec
