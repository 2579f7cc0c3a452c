import Verif.Count.Model
/-! The memory in use, without counters. -/
namespace ELC.Count.Spec
open ELC.Count (Op M)

/-- The sizes of the blocks that exist, and the most that was in use since the counters were cleared. -/
structure State where
  blocks : List Nat
  peak : Nat
deriving DecidableEq, Repr

/-- The memory in use changes; more than a `size_t` can count does not exist. -/
def become (s : State) (blocks : List Nat) : Option State :=
  if blocks.sum < M then some ⟨blocks, max s.peak blocks.sum⟩ else none

/-- The counters are cleared only while no block exists. -/
def step (s : State) : Op → Option State
  | .alloc size ok => if ok then become s (s.blocks ++ [size]) else some s
  | .realloc k size ok => if k < s.blocks.length then (if ok then become s (s.blocks.set k size) else some s) else none
  | .free k => if k < s.blocks.length then become s (s.blocks.eraseIdx k) else none
  | .clear => if s.blocks = [] then some ⟨[], 0⟩ else none

def run (s : State) : List Op → Option State
  | [] => some s
  | o :: os => (step s o).bind fun s' => run s' os

/-- With the counters cleared at any time: the sizes of the blocks that exist, of those that existed when the counters were last
cleared, and the greatest number seen since. -/
structure Since where
  blocks : List Nat
  base : List Nat
  peak : Nat
deriving DecidableEq, Repr

/-- What is in use now less what was in use when the counters were cleared, as a `size_t`. -/
def more (base blocks : List Nat) : Nat :=
  if base.sum ≤ blocks.sum then blocks.sum - base.sum else 2 ^ 64 - (base.sum - blocks.sum)

def becomeSince (s : Since) (blocks : List Nat) : Option Since :=
  if blocks.sum < M then some ⟨blocks, s.base, max s.peak (more s.base blocks)⟩ else none

def stepSince (s : Since) : Op → Option Since
  | .alloc size ok => if ok then becomeSince s (s.blocks ++ [size]) else some s
  | .realloc k size ok => if k < s.blocks.length then (if ok then becomeSince s (s.blocks.set k size) else some s) else none
  | .free k => if k < s.blocks.length then becomeSince s (s.blocks.eraseIdx k) else none
  | .clear => some ⟨s.blocks, s.blocks, 0⟩

def runSince (s : Since) : List Op → Option Since
  | [] => some s
  | o :: os => (stepSince s o).bind fun s' => runSince s' os

/-- The sizes of the blocks that exist, and, since the counters were last cleared: the requests for a new block that were
granted, the blocks freed, the bytes got (a block made smaller counts as less got) and the bytes given back. -/
structure Tally where
  blocks : List Nat
  allocs : Nat
  frees : Nat
  got : Int
  given : Int
deriving DecidableEq, Repr

def stepTally (t : Tally) : Op → Option Tally
  | .alloc size ok => some (if ok then { t with blocks := t.blocks ++ [size], allocs := t.allocs + 1, got := t.got + size } else t)
  | .realloc k size ok => (t.blocks[k]?).map fun old =>
    if ok then { t with blocks := t.blocks.set k size, got := t.got + (size - old) } else t
  | .free k => (t.blocks[k]?).map fun old =>
    { t with blocks := t.blocks.eraseIdx k, frees := t.frees + 1, given := t.given + old }
  | .clear => some ⟨t.blocks, 0, 0, 0, 0⟩

def runTally (t : Tally) : List Op → Option Tally
  | [] => some t
  | o :: os => (stepTally t o).bind fun t' => runTally t' os

/-- The size asked for is a `size_t`. -/
def Fits : Op → Prop
  | .alloc size _ => size < 2 ^ 64
  | .realloc _ size _ => size < 2 ^ 64
  | _ => True

end ELC.Count.Spec
