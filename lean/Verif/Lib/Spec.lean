import Verif.Lib.Model
/-! What handles and functions of libraries are, without counters. -/
namespace ELC.Lib.Spec
open ELC.Lib (Os Op)

/-- A handle of a library, `none` if there is none, or a function: the library it lies in and its address. -/
inductive Val where
  | handle (lib : Option Nat)
  | func (lib : Option Nat) (addr : Nat)
deriving DecidableEq, Repr

def Val.lib : Val → Option Nat
  | .handle l => l
  | .func l _ => l

structure State where
  vars : List Val
  called : List Nat
deriving DecidableEq, Repr

/-- `none`: the program asks for something that is not there (a variable, a library, a symbol). -/
def step (os : Os) (s : State) : Op → Option State
  | .load name => some ⟨s.vars ++ [.handle (os.find name)], s.called⟩
  | .native a => some ⟨s.vars ++ [.func none a], s.called⟩
  | .copy k => (s.vars[k]?).map fun v => ⟨s.vars ++ [v], s.called⟩
  | .drop k => (s.vars[k]?).map fun _ => ⟨s.vars.eraseIdx k, s.called⟩
  | .sym k y => match s.vars[k]? with
    | some (.handle (some l)) => (os.symbols l y).map fun a => ⟨s.vars ++ [.func (some l) a], s.called⟩
    | _ => none
  | .handleOf k => match s.vars[k]? with
    | some (.func l _) => some ⟨s.vars ++ [.handle l], s.called⟩
    | _ => none
  | .call k => match s.vars[k]? with
    | some (.func _ a) => some ⟨s.vars, a :: s.called⟩
    | _ => none

def run (os : Os) (s : State) : List Op → Option State
  | [] => some s
  | o :: ops => (step os s o).bind fun s' => run os s' ops

/-- Somebody holds the library. -/
def held (s : State) (l : Nat) : Prop := ∃ v ∈ s.vars, v.lib = some l

/-- Where the variables come from: the number of the load their library was loaded by, and the names loaded so far. -/
structure Origins where
  vars : List (Option Nat)
  names : List Nat
deriving DecidableEq, Repr

def Origins.step (s : Origins) : Op → Origins
  | .load name => ⟨s.vars ++ [some s.names.length], s.names ++ [name]⟩
  | .native _ => ⟨s.vars ++ [none], s.names⟩
  | .copy k | .sym k _ | .handleOf k => ⟨s.vars ++ (s.vars[k]?).toList, s.names⟩
  | .drop k => ⟨s.vars.eraseIdx k, s.names⟩
  | .call _ => s

def origins (ops : List Op) : Origins := ops.foldl Origins.step ⟨[], []⟩

/-- After `ops`, variable `k` is the only one that comes from some load, and that load found no library. -/
def LastFailed (os : Os) (ops : List Op) (k : Nat) : Prop :=
  ∃ j n : Nat, (origins ops).vars[k]? = some (some j) ∧ (origins ops).names[j]? = some n ∧ os.find n = none ∧
    ∀ k', (origins ops).vars[k']? = some (some j) → k' = k

end ELC.Lib.Spec
