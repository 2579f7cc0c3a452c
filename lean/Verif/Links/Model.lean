/-!
The list whose nodes carry their own links: `F/base_defs/list.hpp`.

Nodes are numbered; 0 and 1 are the two ends that the list itself holds (`_begin`, `_end`).  A node that does not exist is
`none`; a link that was never written is `none`.  Every function returns `none` when it reads or writes a link of a node that
does not exist, or reads one that was never written.
-/
namespace ELC.Links

/-- list.hpp:38-47: the links `_before` and `_next` of every node there is. -/
abbrev Store := Nat → Option (Option Nat × Option Nat)

def upd (s : Store) (n : Nat) (v : Option (Option Nat × Option Nat)) : Store := fun m => if m = n then v else s m

/-- list.hpp:48-49 `get_before`, `get_next`. -/
def before (s : Store) (n : Nat) : Option Nat := (s n).bind Prod.fst
def next (s : Store) (n : Nat) : Option Nat := (s n).bind Prod.snd

/-- One link written. -/
def putBefore (s : Store) (n a : Nat) : Option Store := (s n).map fun x => upd s n (some (some a, x.2))
def putNext (s : Store) (n a : Nat) : Option Store := (s n).map fun x => upd s n (some (x.1, some a))

/-- list.hpp:53-56 `set_before`. -/
def setBefore (s : Store) (n a : Nat) : Option Store := (putBefore s n a).bind fun s => putNext s a n

/-- list.hpp:57-60 `set_next`. -/
def setNext (s : Store) (n a : Nat) : Option Store := (putNext s n a).bind fun s => putBefore s a n

/-- list.hpp:61-64 `insert_to_before`. -/
def insertToBefore (s : Store) (n a : Nat) : Option Store :=
  (before s a).bind fun b => (setBefore s n b).bind fun s => setNext s n a

/-- list.hpp:65-68 `bind_with`. -/
def bindWith (s : Store) (n a : Nat) : Option Store := (setNext s n a).bind fun s => setBefore s n a

/-- list.hpp:69-71 `remove_from_list`. -/
def removeFromList (s : Store) (n : Nat) : Option Store :=
  (before s n).bind fun b => (next s n).bind fun x => setNext s b x

/-- list.hpp:76 `cons_t()`: a new node, its links not written. -/
def create (s : Store) (n : Nat) : Store := upd s n (some (none, none))

/-- list.hpp:77-79 `~cons_t()`, and the end of the node. -/
def destroy (s : Store) (n : Nat) : Option Store := (removeFromList s n).map fun s => upd s n none

/-- list.hpp:98 `list_t()`. -/
def init : Option Store := bindWith (create (create (fun _ => none) 0) 1) 0 1

/-- list.hpp:99-101 `add`. -/
def add (s : Store) (n : Nat) : Option Store := insertToBefore s n 1

/-- list.hpp:105 `empty`. -/
def empty (s : Store) : Option Bool := (next s 0).map fun x => decide (x = 1)

/-- `for(auto i=begin();i!=end();i++)` (list.hpp:102-103): the nodes visited, if the walk ends within so many steps. -/
def walkFrom (s : Store) : Nat → Nat → Option (List Nat)
  | 0, _ => none
  | fuel + 1, i => if i = 1 then some [] else (next s i).bind fun j => (walkFrom s fuel j).map fun l => i :: l

def walk (s : Store) (fuel : Nat) : Option (List Nat) := (next s 0).bind (walkFrom s fuel)

/-- `auto i=head(),e=end();while(--e!=i)` (`F/base/memory/pool/defs.hpp`:96-97): the nodes visited. -/
def walkBackFrom (s : Store) : Nat → Nat → Option (List Nat)
  | 0, _ => none
  | fuel + 1, e => (before s e).bind fun j => if j = 0 then some [] else (walkBackFrom s fuel j).map fun l => j :: l

def walkBack (s : Store) (fuel : Nat) : Option (List Nat) := walkBackFrom s fuel 1

/-- `while((n=i++)!=e)if(p(n))unget(n)` (`F/base/memory/pool/defs.hpp`:118-127): nodes destroyed during the walk. -/
def sweepFrom (p : Nat → Bool) : Nat → Store → Nat → Option Store
  | 0, _, _ => none
  | fuel + 1, s, i =>
    (next s i).bind fun j =>
      if i = 1 then some s
      else if p i then (destroy s i).bind fun s => sweepFrom p fuel s j
      else sweepFrom p fuel s j

def sweep (p : Nat → Bool) (s : Store) (fuel : Nat) : Option Store := (next s 0).bind (sweepFrom p fuel s)

/-- What a program does with a list. -/
inductive Op where
  | add (n : Nat)
  | destroy (n : Nat)

def exec (s : Store) : Op → Option Store
  | .add n => add (create s n) n
  | .destroy n => destroy s n

def run : Store → List Op → Option Store
  | s, [] => some s
  | s, op :: ops => (exec s op).bind fun s => run s ops

end ELC.Links
