/-
Sorting.  Models F/base_defs/sort.hpp lines 32-202.

The array lives in a memory `Nat → α`; iterators are addresses.  The algorithms get `begin` and
`end` addresses.  Nothing stops the model from touching addresses outside `[begin,end)`; the
theorems show that it neither changes nor depends on them.
`compare` is an arbitrary function into `Ordering` (C++ `strong_ordering`).
-/
namespace ELC.Sort
variable {α : Type}

/-- `swap(*i,*j)`. -/
def swapAt (m : Nat → α) (i j : Nat) : Nat → α :=
  fun k => if k = i then m j else if k = j then m i else m k

/-- `*i = x`. -/
def store (m : Nat → α) (i : Nat) (x : α) : Nat → α :=
  fun k => if k = i then x else m k

/-- F/base_defs/sort.hpp:38-48, the choice of `largest` in `heapify`. -/
def pickLargest (cmp : α → α → Ordering) (m : Nat → α) (b e i : Nat) : Nat :=
  let leftChild := b + 2 * (i - b) + 1
  let rightChild := leftChild + 1
  let largest := if leftChild < e ∧ cmp (m leftChild) (m i) = .gt then leftChild else i
  if rightChild < e ∧ cmp (m rightChild) (m largest) = .gt then rightChild else largest

theorem pickLargest_cases (cmp : α → α → Ordering) (m : Nat → α) (b e i : Nat) :
    pickLargest cmp m b e i = i ∨
      (i < pickLargest cmp m b e i ∧ pickLargest cmp m b e i < e) := by
  unfold pickLargest
  simp only
  split <;> split <;> first | (right; omega) | (left; rfl)

/-- F/base_defs/sort.hpp:37-55 `heapify(begin,end,i)`. -/
def heapify (cmp : α → α → Ordering) (m : Nat → α) (b e i : Nat) : Nat → α :=
  if pickLargest cmp m b e i ≠ i then
    heapify cmp (swapAt m i (pickLargest cmp m b e i)) b e (pickLargest cmp m b e i)
  else m
termination_by e - i
decreasing_by
  have := pickLargest_cases cmp m b e i
  omega

/-- The loop F/base_defs/sort.hpp:62-63; `k` counts the remaining indices `k-1,…,0`. -/
def buildLoop (cmp : α → α → Ordering) (m : Nat → α) (b e : Nat) : Nat → (Nat → α)
  | 0 => m
  | k + 1 => buildLoop cmp (heapify cmp m b e (b + k)) b e k

/-- F/base_defs/sort.hpp:58-64 `build_max_heap`. -/
def buildMaxHeap (cmp : α → α → Ordering) (m : Nat → α) (b e : Nat) : Nat → α :=
  buildLoop cmp m b e ((e - b) / 2)

/-- The loop F/base_defs/sort.hpp:74-77; `k` counts the remaining indices `k-1,…,0`. -/
def heapsortLoop (cmp : α → α → Ordering) (m : Nat → α) (b : Nat) : Nat → (Nat → α)
  | 0 => m
  | k + 1 => heapsortLoop cmp (heapify cmp (swapAt m b (b + k)) b (b + k) b) b k

/-- F/base_defs/sort.hpp:67-78 `heapsort`. -/
def heapsort (cmp : α → α → Ordering) (m : Nat → α) (b e : Nat) : Nat → α :=
  heapsortLoop cmp (buildMaxHeap cmp m b e) b (e - b)

/-- The loop F/base_defs/sort.hpp:102-105; `h` is `j+1`, the position of the gap. -/
def shiftLoop (cmp : α → α → Ordering) (key : α) (b : Nat) (m : Nat → α) (h : Nat) :
    (Nat → α) × Nat :=
  if h > b ∧ cmp (m (h - 1)) key = .gt then
    shiftLoop cmp key b (store m h (m (h - 1))) (h - 1)
  else (m, h)
termination_by h
decreasing_by omega

/-- The body F/base_defs/sort.hpp:99-107 of the outer loop of `insertion_sort`. -/
def insertStep (cmp : α → α → Ordering) (b : Nat) (m : Nat → α) (i : Nat) : Nat → α :=
  let key := m i
  let r := shiftLoop cmp key b m i
  store r.1 r.2 key

/-- The outer loop of `insertion_sort`: `n` more iterations, the next one at `i`. -/
def insertionLoop (cmp : α → α → Ordering) (b : Nat) (m : Nat → α) (i : Nat) : Nat → (Nat → α)
  | 0 => m
  | n + 1 => insertionLoop cmp b (insertStep cmp b m i) (i + 1) n

/-- F/base_defs/sort.hpp:96-109 `insertion_sort`. -/
def insertionSort (cmp : α → α → Ordering) (m : Nat → α) (b e : Nat) : Nat → α :=
  insertionLoop cmp b m (b + 1) (e - (b + 1))

/-- The loop F/base_defs/sort.hpp:123-129 of `partition`: `n` more iterations, the next one at `j`.
`pivot` is a reference to `end[-1]`, hence it is read from the memory each time. -/
def partitionLoop (cmp : α → α → Ordering) (e : Nat) (m : Nat → α) (i j : Nat) :
    Nat → (Nat → α) × Nat
  | 0 => (m, i)
  | n + 1 =>
    if cmp (m j) (m (e - 1)) = .lt then
      partitionLoop cmp e (swapAt m i j) (i + 1) (j + 1) n
    else partitionLoop cmp e m i (j + 1) n

/-- F/base_defs/sort.hpp:119-133 `partition`. -/
def partition (cmp : α → α → Ordering) (m : Nat → α) (b e : Nat) : (Nat → α) × Nat :=
  let r := partitionLoop cmp e m b b (e - 1 - b)
  (swapAt r.1 r.2 (e - 1), r.2)

theorem partitionLoop_bound (cmp : α → α → Ordering) (e : Nat) (n : Nat) :
    ∀ (m : Nat → α) (i j : Nat), i ≤ (partitionLoop cmp e m i j n).2 ∧
      (partitionLoop cmp e m i j n).2 ≤ i + n := by
  induction n with
  | zero => intro m i j; simp [partitionLoop]
  | succ n ih =>
    intro m i j
    unfold partitionLoop
    split
    · have := ih (swapAt m i j) (i + 1) (j + 1); omega
    · have := ih m i (j + 1); omega

theorem partition_bound (cmp : α → α → Ordering) (m : Nat → α) (b e : Nat) (h : e - b > 1) :
    b ≤ (partition cmp m b e).2 ∧ (partition cmp m b e).2 < e := by
  have := partitionLoop_bound cmp e (e - 1 - b) m b b
  simp only [partition]; omega

/-- F/base_defs/sort.hpp:137-144 `quicksort`. -/
def quicksort (cmp : α → α → Ordering) (m : Nat → α) (b e : Nat) : Nat → α :=
  if h : e - b > 1 then
    quicksort cmp (quicksort cmp (partition cmp m b e).1 b (partition cmp m b e).2)
      ((partition cmp m b e).2 + 1) e
  else m
termination_by e - b
decreasing_by
  · have := partition_bound cmp m b e h; omega
  · have := partition_bound cmp m b e h; omega

/-- F/base_defs/sort.hpp:153 `size_threshold`. -/
def sizeThreshold : Nat := 1 <<< 4

/-- F/base_defs/sort.hpp:157-171 `introsort_loop`. -/
def introsortLoop (cmp : α → α → Ordering) (m : Nat → α) (b e depth : Nat) : Nat → α :=
  if e - b > sizeThreshold then
    match depth with
    | 0 => heapsort cmp m b e
    | depth + 1 =>
      introsortLoop cmp
        (introsortLoop cmp (partition cmp m b e).1 ((partition cmp m b e).2 + 1) e depth)
        b (partition cmp m b e).2 depth
  else insertionSort cmp m b e
termination_by depth

/-- F/base_defs/sort.hpp:175-183 `introsort` (= `sort`, lines 191-193).  The depth limit
`2*log(n,2)` is computed in floating point; here it is an arbitrary number. -/
def introsort (cmp : α → α → Ordering) (depthLimit : Nat) (m : Nat → α) (b e : Nat) : Nat → α :=
  if e - b ≤ sizeThreshold then insertionSort cmp m b e
  else introsortLoop cmp m b e depthLimit

end ELC.Sort
