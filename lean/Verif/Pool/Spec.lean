import Verif.Pool.Model
/-! What a user of a pool relies on. -/
namespace ELC.Pool.Spec

open ELC.Pool

/-- The slots of the blocks, and those of them that are free. -/
def slots (n size : Nat) (pool : List Ment) : List Nat := pool.flatMap fun m => (List.range n).map fun i => m.base + i * size
def available (size : Nat) (pool : List Ment) : List Nat := pool.flatMap fun m => m.unused.map fun i => m.base + i * size

/-- Two regions of `k` bytes do not overlap. -/
def Apart (k a b : Nat) : Prop := a + k ≤ b ∨ b + k ≤ a

/-- No slot is held twice, no two held slots overlap, and every slot of every block is either held or free, not both. -/
structure Sound (n size : Nat) (s : State) : Prop where
  nodup : s.live.Nodup
  apart : ∀ a ∈ s.live, ∀ b ∈ s.live, a ≠ b → Apart size a b
  all : (s.live ++ available size s.pool).Perm (slots n size s.pool)

/-- A new block does not overlap the others; only held slots are given back. -/
def Valid (n size : Nat) (s : State) : Op → Prop
  | .alloc b => ∀ m ∈ s.pool, Apart (n * size) b m.base
  | .free a => a ∈ s.live
  | .shrink => True

/-- What is given back lies in the first `n - 1` bytes of its block. -/
def InFront (n : Nat) (s : State) : Op → Prop
  | .free a => ∃ m ∈ s.pool, m.base ≤ a ∧ a < m.base + (n - 1)
  | _ => True

def Along (n size : Nat) (P : State → Op → Prop) : State → List Op → Prop
  | _, [] => True
  | s, op :: ops => P s op ∧ ∀ s', exec n size s op = some s' → Along n size P s' ops

/-- No blocks, nothing held. -/
def start : State := ⟨[], []⟩

end ELC.Pool.Spec
