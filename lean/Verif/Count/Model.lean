/-!
Counting memory: S/APIs/alloc.hpp:73-96, 208-264, built with `ELC_TEST_COUNT_MEMORY_ALLOC`.

Simplifications: the system gives or refuses memory as it likes (`ok`); the size of a block is the one last asked for (see
Alloc for how it is kept); one thread.  `none`: there is no such block.
-/
namespace ELC.Count

/-- The numbers of a `size_t`. -/
def M : Nat := 2 ^ 64

/-- 76-81: the counters, and the sizes of the blocks that exist. -/
structure St where
  allocCount : Nat
  freeCount : Nat
  allocSize : Nat
  freeSize : Nat
  inUse : Nat
  inUseMax : Nat
  blocks : List Nat
deriving DecidableEq, Repr

def St.init : St := ⟨0, 0, 0, 0, 0, 0, []⟩

inductive Op where
  | alloc (size : Nat) (ok : Bool)
  | realloc (k size : Nat) (ok : Bool)
  | free (k : Nat)
  | clear
deriving DecidableEq, Repr

/-- 82-86 `update_memory_using`; the difference as a `size_t`, to which it is converted. -/
def update (s : St) (diff : Nat) : St :=
  let u := (s.inUse + diff) % M
  { s with inUse := u, inUseMax := if u > s.inUseMax then u else s.inUseMax }

/-- 208-224 `aligned_alloc`, 232-250 `realloc`, 255-264 `free`, 87-94 `clear`. -/
def step (s : St) : Op → Option St
  | .alloc size ok =>
    some (if ok then
      let s := { s with allocCount := (s.allocCount + 1) % M, allocSize := (s.allocSize + size) % M }
      let s := update s size
      { s with blocks := s.blocks ++ [size] }
    else s)
  | .realloc k nsize ok => (s.blocks[k]?).map fun osize =>
    if ok then
      let s := { s with allocSize := (s.allocSize + (nsize + M - osize)) % M }
      let s := update s ((nsize + M - osize) % M)
      { s with blocks := s.blocks.set k nsize }
    else s
  | .free k => (s.blocks[k]?).map fun size =>
    let s := { s with freeCount := (s.freeCount + 1) % M, freeSize := (s.freeSize + size) % M }
    let s := update s ((M - size) % M)
    { s with blocks := s.blocks.eraseIdx k }
  | .clear => some ⟨0, 0, 0, 0, 0, 0, s.blocks⟩

def run (s : St) : List Op → Option St
  | [] => some s
  | o :: os => (step s o).bind fun s' => run s' os

end ELC.Count
