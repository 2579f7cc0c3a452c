/-!
Measuring time: `F/timer/defs.hpp:31-52` `debug_timer_t`.

Simplifications: times are whole ticks of the clock, and each call says what the clock showed; conversion of the result to a
floating point number of some unit is left out.
-/
namespace ELC.Timer

/-- 34: the two time points; both are the epoch in a new timer. -/
structure Timer where
  start : Int
  stop : Int
deriving DecidableEq, Repr

def fresh : Timer := ⟨0, 0⟩

/-- What a program does with a timer, with the time of the clock. -/
inductive Op where
  | start (now : Int)
  | stop (now : Int)
  | reset (now : Int)
  | pause (now : Int)
  | resume (now : Int)
deriving DecidableEq, Repr

/-- 36-41 `start`, `end`, `reset`, `pause`, `resume`. -/
def step (t : Timer) : Op → Timer
  | .start now => { t with start := now }
  | .stop now => { t with stop := now }
  | .reset now => { t with start := now }
  | .pause now => { t with stop := now }
  | .resume now => { t with start := t.start + (now - t.stop) }

def run : Timer → List Op → Timer := List.foldl step

/-- 49-52 `get`. -/
def get (t : Timer) : Int := t.stop - t.start

end ELC.Timer
