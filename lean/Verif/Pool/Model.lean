/-!
The pool allocator: `F/base/memory/pool/defs.hpp`.

Addresses are numbers.  `n` is the number of slots of a block (`ment_size`), `size` the size of a slot in bytes
(`sizeof(T)`).  A pool is its blocks in list order (the list itself: `Verif/Links`).  `none` is an operation without defined
effect: a write outside a block, or an address given back to the system that did not come from it.
-/
namespace ELC.Pool

/-- pool/defs.hpp:44-54: a block: the address of `_data`, and `_unuse_indexes` up to `_unuse_indexes_index`, the last one
first. -/
structure Ment where
  base : Nat
  unused : List Nat
deriving DecidableEq

/-- pool/defs.hpp:56-59: a new block. -/
def Ment.fresh (n base : Nat) : Ment := ⟨base, (List.range n).reverse⟩

/-- pool/defs.hpp:60-65. -/
def Ment.getNew (size : Nat) (m : Ment) : Option (Nat × Ment) :=
  match m.unused with
  | [] => none
  | i :: rest => some (m.base + i * size, { m with unused := rest })

/-- pool/defs.hpp:66-68, with `F/base_defs/range.hpp`:42, 75-77: a range of `ment_size-1` bytes. -/
def Ment.inPool (n : Nat) (m : Ment) (a : Nat) : Bool := decide (m.base ≤ a) && decide (a < m.base + (n - 1))

/-- pool/defs.hpp:69-75, for an address in the block: the slot is free again. -/
def Ment.useEnd (n size : Nat) (m : Ment) (a : Nat) : Option Ment :=
  if m.unused.length < n then some { m with unused := (a - m.base) / size :: m.unused } else none

/-- pool/defs.hpp:76. -/
def Ment.empty (n : Nat) (m : Ment) : Bool := decide (m.unused.length = n)

/-- pool/defs.hpp:93-101: the blocks from the last to the first. -/
def getNewIn (size : Nat) : List Ment → Option (Nat × List Ment)
  | [] => none
  | m :: ms =>
    match getNewIn size ms with
    | some p => some (p.1, m :: p.2)
    | none => (m.getNew size).map fun p => (p.1, p.2 :: ms)

/-- pool/defs.hpp:92-105 `get_new`; a new block is made at the address the system gives. -/
def getNew (n size : Nat) (pool : List Ment) (newBase : Nat) : Option (Nat × List Ment) :=
  match getNewIn size pool with
  | some p => some p
  | none => ((Ment.fresh n newBase).getNew size).map fun p => (p.1, pool ++ [p.2])

/-- pool/defs.hpp:106-111 `use_end`, and 168-171 `the_free_method`: an address that no block recognises is given to the
system. -/
def free (n size : Nat) (a : Nat) : List Ment → Option (List Ment)
  | [] => none
  | m :: ms => if m.inPool n a then (m.useEnd n size a).map fun m' => m' :: ms else (free n size a ms).map fun ms' => m :: ms'

/-- pool/defs.hpp:118-129 `shrink` (see `Verif/Links`, `sweep`). -/
def shrink (n : Nat) (pool : List Ment) : List Ment := pool.filter fun m => !m.empty n

/-- pool/defs.hpp:130-135 `empty`. -/
def empty (n : Nat) (pool : List Ment) : Bool := pool.all fun m => m.empty n

/-- What a program does with a pool; the system's answer to a request for a block is part of the history. -/
inductive Op where
  | alloc (newBase : Nat)
  | free (a : Nat)
  | shrink

/-- The pool, and the addresses the program holds. -/
structure State where
  pool : List Ment
  live : List Nat

def exec (n size : Nat) (s : State) : Op → Option State
  | .alloc b => (getNew n size s.pool b).map fun p => ⟨p.2, p.1 :: s.live⟩
  | .free a => (free n size a s.pool).map fun p => ⟨p, s.live.erase a⟩
  | .shrink => some ⟨shrink n s.pool, s.live⟩

def run (n size : Nat) : State → List Op → Option State
  | s, [] => some s
  | s, op :: ops => (exec n size s op).bind fun s => run n size s ops

end ELC.Pool
