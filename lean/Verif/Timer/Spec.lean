import Verif.Timer.Model
/-! A stopwatch. -/
namespace ELC.Timer.Spec
open ELC.Timer (Op)

/-- The time it ran before it was last started again, and since when it runs, if it does. -/
structure Watch where
  elapsed : Int
  since : Option Int
deriving DecidableEq, Repr

/-- Starting begins with nothing; pausing a watch that stands, or resuming one that runs, does nothing. -/
def step (w : Watch) : Op → Watch
  | .start now | .reset now => ⟨0, some now⟩
  | .stop now | .pause now =>
    match w.since with
    | some s => ⟨w.elapsed + (now - s), none⟩
    | none => w
  | .resume now =>
    match w.since with
    | some _ => w
    | none => ⟨w.elapsed, some now⟩

def run : Watch → List Op → Watch := List.foldl step

/-- Is the watch paused only while it runs, and resumed only while it stands? -/
def Proper : Watch → List Op → Prop
  | _, [] => True
  | w, o :: os =>
    (match o with
      | .stop _ | .pause _ => w.since ≠ none
      | .resume _ => w.since = none
      | _ => True) ∧ Proper (step w o) os

/-- What the timer shows too much: the time since the last stop, for each stop of a watch that stands, less the time since the
last stop, for each resumption of one that runs; forgotten at each start.  `last`: when the last stop was. -/
structure Error where
  watch : Watch
  last : Int
  over : Int
deriving DecidableEq, Repr

def stepError (e : Error) (o : Op) : Error :=
  ⟨step e.watch o,
   match o with
    | .stop now | .pause now => now
    | _ => e.last,
   match o with
    | .start _ | .reset _ => 0
    | .stop now | .pause now => if e.watch.since = none then e.over + (now - e.last) else e.over
    | .resume now => if e.watch.since = none then e.over else e.over - (now - e.last)⟩

def runError : Error → List Op → Error := List.foldl stepError

end ELC.Timer.Spec
