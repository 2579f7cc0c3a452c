/-!
Allocation: `S/APIs/alloc.hpp` (with `alloc/default_method/overhead.hpp`), `F/base/memory/alloc/default_method/defs.hpp` and
`F/base/memory/alloc/defs.hpp`.

Addresses and sizes are numbers of bytes; a `size_t` has 8 bytes, lowest first.  The functions of the C library are here as
what they may do: what they give is a parameter (`Given`), and what is promised about it is in the specification.  The
counters are those of `ELC_TEST_COUNT_MEMORY_ALLOC`; they do not change anything else.  Not modelled: the collector that runs
when the library gives nothing (the state stays and the call is made again), the test log of `stest`, the places of calls
recorded for debugging.
-/
namespace ELC.Alloc

/-- What is wrong: an access outside of all allocated blocks, or giving back what was not given. -/
inductive Fault where
  | outside
  | badFree
deriving DecidableEq, Repr

/-- The blocks that the C library has given (address and size), and the bytes in memory. -/
structure Heap where
  blocks : List (Nat × Nat)
  mem : Nat → Nat

/-- alloc.hpp:76-81, the counters. -/
structure Counts where
  allocs : Nat
  frees : Nat
  allocSize : Nat
  freeSize : Nat
  inUse : Nat
  inUseMax : Nat
deriving DecidableEq, Repr

/-- Everything together. -/
structure State where
  heap : Heap
  counts : Counts

/-- `size_t` arithmetic. -/
def wrap (n : Nat) : Nat := n % 2 ^ 64

/-- overhead.hpp:33-35 `overhead_get_align` and 44-46 `correct_align`: `max(align, alignof(size_t))`. -/
def headAlign (align : Nat) : Nat := max align 8

/-- overhead.hpp:36-40 `overhead_get_offset_value`, with `ceil_div` (math.hpp:157-162). -/
def offset (align : Nat) : Nat := (8 / headAlign align + (if 8 % headAlign align = 0 then 0 else 1)) * headAlign align

/-- overhead.hpp:41-43 `correct_size`. -/
def fullSize (size align : Nat) : Nat := wrap (size + offset align)

/-- `n` bytes from `a` on lie in one block. -/
def Heap.inside (h : Heap) (a n : Nat) : Bool := h.blocks.any fun b => decide (b.1 ≤ a ∧ a + n ≤ b.1 + b.2)

/-- The number in `k` bytes. -/
def readN (m : Nat → Nat) (a : Nat) : Nat → Nat
  | 0 => 0
  | k + 1 => m a + 256 * readN m (a + 1) k

/-- overhead.hpp:59-61 `get_overhead`. -/
def readWord (h : Heap) (a : Nat) : Except Fault Nat :=
  if h.inside a 8 then .ok (readN h.mem a 8) else .error .outside

/-- overhead.hpp:56-58 `set_overhead`. -/
def writeWord (h : Heap) (a w : Nat) : Except Fault Heap :=
  if h.inside a 8 then
    .ok { h with mem := fun x => if a ≤ x ∧ x < a + 8 then w / 256 ^ (x - a) % 256 else h.mem x }
  else .error .outside

/-- A write of the program. -/
def Heap.write (h : Heap) (a v : Nat) : Heap := { h with mem := fun x => if x = a then v else h.mem x }

/-- What the C library gives: nothing, or an address and what is in the new bytes. -/
abbrev Given := Option (Nat × (Nat → Nat))

/-- alloc.hpp:120-122, 135-140: `::std::aligned_alloc`, `_aligned_malloc`. -/
def libAlloc (h : Heap) (size : Nat) (g : Given) : Option Nat × Heap :=
  match g with
  | none => (none, h)
  | some (p, fill) =>
    (some p, { blocks := (p, size) :: h.blocks, mem := fun x => if p ≤ x ∧ x < p + size then fill x else h.mem x })

/-- alloc.hpp:123-125, 141-146: `::std::free`, `_aligned_free`. -/
def libFree (h : Heap) (p : Nat) : Except Fault Heap :=
  if h.blocks.any (fun b => b.1 == p) then .ok { h with blocks := h.blocks.filter fun b => b.1 ≠ p } else .error .badFree

/-- alloc.hpp:126-128, 147-152: `::std::realloc`, `_aligned_realloc`. -/
def libRealloc (h : Heap) (p size : Nat) (g : Given) : Except Fault (Option Nat × Heap) :=
  match h.blocks.find? (fun b => b.1 == p) with
  | none => .error .badFree
  | some old =>
    match g with
    | none => .ok (none, h)
    | some (q, fill) =>
      .ok (some q,
        { blocks := (q, size) :: h.blocks.filter fun b => b.1 ≠ p
          mem := fun x => if q ≤ x ∧ x < q + size then (if x < q + min old.2 size then h.mem (p + (x - q)) else fill x)
            else h.mem x })

/-- alloc.hpp:82-86 `update_memory_using`; the difference is given modulo 2^64. -/
def Counts.update (c : Counts) (diff : Nat) : Counts :=
  { c with inUse := wrap (c.inUse + diff), inUseMax := max c.inUseMax (wrap (c.inUse + diff)) }

/-- alloc.hpp:189-192 `aligned_blocksize`, 269-271 `get_size_of_alloc`. -/
def getSize (s : State) (p align : Nat) : Except Fault Nat := readWord s.heap (p - offset align)

/-- alloc.hpp:165-174 and 208-224 `aligned_alloc`. -/
def alignedAlloc (s : State) (align size : Nat) (g : Given) : Except Fault (Option Nat × State) :=
  match libAlloc s.heap (fullSize size align) g with
  | (none, h) => .ok (none, { s with heap := h })
  | (some p, h) => do
    let h ← writeWord h p size
    let c := { s.counts with allocs := wrap (s.counts.allocs + 1), allocSize := wrap (s.counts.allocSize + size) }
    return (some (p + offset align), { heap := h, counts := c.update size })

/-- alloc.hpp:179-188 and 232-250 `realloc`. -/
def reallocBytes (s : State) (p nsize align : Nat) (g : Given) : Except Fault (Option Nat × State) := do
  let osize ← getSize s p align
  match ← libRealloc s.heap (p - offset align) (fullSize nsize align) g with
  | (none, h) => return (none, { s with heap := h })
  | (some q, h) =>
    let h ← writeWord h q nsize
    let diff := wrap (nsize + (2 ^ 64 - wrap osize))
    let c := { s.counts with allocSize := wrap (s.counts.allocSize + diff) }
    return (some (q + offset align), { heap := h, counts := c.update diff })

/-- alloc.hpp:175-178 and 255-264 `free`. -/
def freeBytes (s : State) (p align : Nat) : Except Fault State := do
  let size ← getSize s p align
  let h ← libFree s.heap (p - offset align)
  let c := { s.counts with frees := wrap (s.counts.frees + 1), freeSize := wrap (s.counts.freeSize + size) }
  return { heap := h, counts := c.update (wrap (2 ^ 64 - wrap size)) }

/-- A type: `sizeof` and `alignof`. -/
structure Ty where
  size : Nat
  align : Nat
deriving DecidableEq, Repr

/-- What comes of a call: `null_ptr`, a pointer, or another round (`gc_for_alloc`). -/
inductive Got where
  | null
  | ptr (p : Nat)
  | again
deriving DecidableEq, Repr

/-- `while(!assign(tmp,…))gc_for_alloc();`, one round. -/
def got : Option Nat × State → Got × State
  | (none, s) => (.again, s)
  | (some p, s) => (.ptr p, s)

/-- alloc/defs.hpp:106-115 `alloc<T>(size)` (101-105 `alloc<T>()` is the one with size 1), default_method/defs.hpp:125-131. -/
def alloc (s : State) (t : Ty) (n : Nat) (g : Given) : Except Fault (Got × State) :=
  if n ≠ 0 then got <$> alignedAlloc s t.align (wrap (t.size * n)) g else .ok (.null, s)

/-- alloc/defs.hpp:133-139 `free`, default_method/defs.hpp:137-140.  `none` is `null_ptr`. -/
def free (s : State) (t : Ty) (p : Option Nat) : Except Fault State :=
  match p with
  | none => .ok s
  | some p => freeBytes s p t.align

/-- alloc/defs.hpp:148-166 `realloc`, default_method/defs.hpp:141-150: what the pointer becomes. -/
def realloc (s : State) (t : Ty) (p : Option Nat) (n : Nat) (g : Given) : Except Fault (Got × State) :=
  if n ≠ 0 then
    match p with
    | some p => got <$> reallocBytes s p (wrap (t.size * n)) t.align g
    | none => alloc s t n g
  else (fun s => (.null, s)) <$> free s t p

/-- alloc/defs.hpp:188-194 `get_size_of_alloc`, default_method/defs.hpp:132-136. -/
def sizeOf (s : State) (t : Ty) (p : Option Nat) : Except Fault Nat :=
  match p with
  | none => .ok 0
  | some p => (· / t.size) <$> getSize s p t.align

/-- alloc/defs.hpp:210-213 `copy_alloc`. -/
def copyAlloc (s : State) (t : Ty) (p : Option Nat) (g : Given) : Except Fault (Got × State) := do
  let n ← sizeOf s t p
  alloc s t n g

/-- Nothing allocated yet. -/
def State.init (mem : Nat → Nat) : State := ⟨⟨[], mem⟩, ⟨0, 0, 0, 0, 0, 0⟩⟩

end ELC.Alloc
