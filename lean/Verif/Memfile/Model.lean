import Mathlib.Data.List.Basic
import Mathlib.Tactic.Ring

/-
The stream in memory.  Models F/memory_stream/memory_stream.hpp:31-91.  The file is part of the project but says of itself
that it is not finished, and it does not compile as it is: `buf_size` is a `constexpr` member that is not static, and
`seek` and `seek_to` override functions of other types.  What is modelled is what the bodies of its functions say.
-/
namespace ELC.Memfile

/-- `size_t` has 64 bits. -/
def W : Nat := 2 ^ 64

/-- Subtraction of `size_t`. -/
def sub64 (a b : Nat) : Nat := (a + W - b % W) % W

/-- memory_stream.hpp:33-35.  `base` is the address `_m`, `cells` the bytes behind it, `none` for one that was never
written; after `close` there are none.  `size` is `_s`, `pos` is `_pos`. -/
structure Mem where
  base : Nat
  cells : List (Option Nat)
  size : Nat
  pos : Nat
deriving DecidableEq, Repr

/-- memory_stream.hpp:32, 36-40: a new stream with `pow(10,2)` bytes at some address. -/
def new (base : Nat) : Mem := ⟨base, List.replicate 100 none, 0, 0⟩

/-- memory_stream.hpp:44-46 `bufsize`: the size of the block, zero without one (F/base/memory/alloc/defs.hpp:
`get_size_of_alloc` of a null pointer). -/
def Mem.bufsize (m : Mem) : Nat := m.cells.length

/-- memory_stream.hpp:49-51: `seek(beg,offset)`; the offset is not looked at.  What it returns is the new pointer. -/
def Mem.seekBeg (m : Mem) (_offset : Int) : Mem × Nat := ({ m with pos := 0 }, m.base)

/-- memory_stream.hpp:52-54: `seek(cur,offset)`; `tell` is this with the offset 0 (base_stream/base_streams/_body.hpp:36). -/
def Mem.seekCur (m : Mem) (offset : Int) : Mem × Nat :=
  let pos := (((m.pos : Int) + offset) % (W : Int)).toNat
  ({ m with pos := pos }, m.base + pos)

/-- memory_stream.hpp:55-57: `seek(end,offset)`; the offset is not looked at. -/
def Mem.seekEnd (m : Mem) (_offset : Int) : Mem × Nat := ({ m with pos := m.size }, m.base + m.size)

/-- memory_stream.hpp:62-64 `seek_to`: to a pointer that `seek` or `tell` gave. -/
def Mem.seekTo (m : Mem) (p : Nat) : Mem := { m with pos := sub64 p m.base }

/-- memory_stream.hpp:71-75 `close`; the position stays. -/
def Mem.close (m : Mem) : Mem := { m with base := 0, cells := [], size := 0 }

/-- F/base/memory/get/defs.hpp:641-680 `get_resize` of bytes: what was there stays as far as there is room. -/
def resize (cells : List (Option Nat)) (n : Nat) : List (Option Nat) :=
  cells.take n ++ List.replicate (n - cells.length) none

/-- memory_stream.hpp:77-78: the block before the bytes are copied.  `gold` is `get_next_gold_size_to_resize_for_array`
(F/base_defs/math.hpp:585-590), `moved` the address of the block if it is given another size. -/
def Mem.grow (gold : Nat → Nat) (moved : Nat) (m : Mem) (size : Nat) : Mem :=
  if sub64 m.bufsize m.pos < size then
    { m with base := moved, cells := resize m.cells (gold ((m.pos + size) % W)) }
  else m

/-- memory_stream.hpp:76-82 `write`; `none`: bytes outside the block are written. -/
def Mem.write (gold : Nat → Nat) (moved : Nat) (m : Mem) (bs : List Nat) : Option Mem :=
  let g := m.grow gold moved bs.length
  if g.pos + bs.length ≤ g.cells.length then
    some { g with
      cells := g.cells.take g.pos ++ bs.map some ++ g.cells.drop (g.pos + bs.length)
      pos := g.pos + bs.length
      size := max (g.pos + bs.length) g.size }
  else none

/-- memory_stream.hpp:84-85: how many bytes are read. -/
def Mem.readSize (m : Mem) (n : Nat) : Nat := if m.size < (m.pos + n) % W then sub64 m.size m.pos else n

/-- memory_stream.hpp:83-89 `read` into a buffer of `n` bytes; `none`: bytes outside the block are read, or more than fit in
the buffer. -/
def Mem.read (m : Mem) (n : Nat) : Option (List (Option Nat) × Mem) :=
  if m.readSize n ≤ n ∧ m.pos + m.readSize n ≤ m.cells.length then
    some ((m.cells.drop m.pos).take (m.readSize n), { m with pos := m.pos + m.readSize n })
  else none

end ELC.Memfile
