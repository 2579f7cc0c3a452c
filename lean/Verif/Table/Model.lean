/-!
`hash_table_t` and `map_t`: `F/base/container/hash_table/defs.hpp`, `F/base/container/map/defs.hpp`, and the buckets,
`F/base/container/stacks/`.

A linked list is the list of its records.  `none` is undefined behaviour (an index outside the array of buckets).
Records are compared by a key; the hash is a function of the key.
-/
namespace ELC.Table

variable {R K : Type}

/-! ### buckets -/

/-- base_stack.hpp:35-42: the list and the separate count. -/
structure Bucket (R : Type) where
  items : List R
  size : Nat
deriving Repr, DecidableEq

/-- base_stack.hpp:57: an empty bucket. -/
def Bucket.empty : Bucket R := ⟨[], 0⟩

/-- base_stack.hpp:110-113 `add`, and 153-157 for a node taken from another bucket. -/
def Bucket.add (b : Bucket R) (a : R) : Bucket R := ⟨a :: b.items, b.size + 1⟩

/-- base_stack.hpp:118-128 and auto_stack.hpp:47-57, the loops: the first record that matches, and the list without it. -/
def takeFirst (p : R → Bool) : List R → Option (R × List R)
  | [] => none
  | x :: xs => if p x then some (x, xs) else (takeFirst p xs).map fun r => (r.1, x :: r.2)

/-- auto_stack.hpp:46-59 `find`: the record found is moved to the front. -/
def Bucket.find (p : R → Bool) (b : Bucket R) : Option R × Bucket R :=
  match takeFirst p b.items with
  | some r => (some r.1, ⟨r.1 :: r.2, b.size⟩)
  | none => (none, b)

/-- base_stack.hpp:117-130 `remove`. -/
def Bucket.remove (p : R → Bool) (b : Bucket R) : Bool × Bucket R :=
  match takeFirst p b.items with
  | some r => (true, ⟨r.2, b.size - 1⟩)
  | none => (false, b)

/-! ### the table -/

/-- hash_table/defs.hpp:39: the array of buckets. -/
abbrev Table (R : Type) := List (Bucket R)

/-- What the code is instantiated with: the key of a record, `bucket_max_size`, and
`get_next_gold_size_to_resize_for_hash` (math.hpp:593-599), of which the theorems only need that it is not zero. -/
structure Config (R K : Type) where
  key : R → K
  limit : Nat
  grow : Nat → Nat

/-- hash_table/defs.hpp:59 `hash_table_t()`. -/
def new : Table R := List.replicate 5 Bucket.empty

/-- hash_table/defs.hpp:43-45 `find_bucket` for a record with hash `h`, and 85 `bucket.add(a)`: the table and the new count
of the bucket. -/
def push (t : Table R) (h : Nat) (a : R) : Option (Table R × Nat) :=
  (t[h % t.length]?).map fun b => (t.set (h % t.length) (b.add a), (b.add a).size)

/-- hash_table/defs.hpp:49-50, the inner loop of `bucket_count_grow`: all records of a bucket, from the top, to their new
buckets. -/
def drain (hash : R → Nat) : List R → Table R → Option (Table R)
  | [], t => some t
  | x :: xs, t => (push t (hash x) x).bind fun r => drain hash xs r.1

/-- hash_table/defs.hpp:48-51, the outer loop. -/
def drainAll (hash : R → Nat) : List (Bucket R) → Table R → Option (Table R)
  | [], t => some t
  | b :: bs, t => (drain hash b.items t).bind fun t' => drainAll hash bs t'

/-- hash_table/defs.hpp:46-53 `bucket_count_grow`. -/
def regrow (C : Config R K) (hash : R → Nat) (t : Table R) : Option (Table R) :=
  drainAll hash t (List.replicate (C.grow t.length) Bucket.empty)

/-- hash_table/defs.hpp:83-88 `add`. -/
def add (C : Config R K) (hash : K → Nat) (t : Table R) (a : R) : Option (Table R) :=
  (push t (hash (C.key a)) a).bind fun r =>
    if r.2 > C.limit then regrow C (fun r => hash (C.key r)) r.1 else some r.1

/-- hash_table/defs.hpp:111-117: the search in all other buckets, for a type with an unstable hash. -/
def scanFind (p : R → Bool) (skip : Nat) : Nat → Table R → Option R × Table R
  | _, [] => (none, [])
  | i, b :: bs =>
    if i = skip then
      let r := scanFind p skip (i + 1) bs
      (r.1, b :: r.2)
    else
      match b.find p with
      | (some x, b') => (some x, b' :: bs)
      | (none, b') =>
        let r := scanFind p skip (i + 1) bs
        (r.1, b' :: r.2)

/-- hash_table/defs.hpp:104-121 `find`; `unstable` is `is_unstable_hash<T>`. -/
def find [DecidableEq K] (C : Config R K) (unstable : Bool) (hash : K → Nat) (t : Table R) (k : K) :
    Option (Option R × Table R) :=
  (t[hash k % t.length]?).map fun b =>
    match b.find (fun r => decide (C.key r = k)) with
    | (some x, b') => (some x, t.set (hash k % t.length) b')
    | (none, _) =>
      if unstable then scanFind (fun r => decide (C.key r = k)) (hash k % t.length) 0 t else (none, t)

/-- hash_table/defs.hpp:94-100: removal from all other buckets. -/
def scanRemove (p : R → Bool) (skip : Nat) : Nat → Table R → Bool × Table R
  | _, [] => (false, [])
  | i, b :: bs =>
    if i = skip then
      let r := scanRemove p skip (i + 1) bs
      (r.1, b :: r.2)
    else
      match b.remove p with
      | (true, b') => (true, b' :: bs)
      | (false, b') =>
        let r := scanRemove p skip (i + 1) bs
        (r.1, b' :: r.2)

/-- hash_table/defs.hpp:89-103 `remove`. -/
def remove [DecidableEq K] (C : Config R K) (unstable : Bool) (hash : K → Nat) (t : Table R) (k : K) :
    Option (Bool × Table R) :=
  (t[hash k % t.length]?).map fun b =>
    match b.remove (fun r => decide (C.key r = k)) with
    | (true, b') => (true, t.set (hash k % t.length) b')
    | (false, _) =>
      if unstable then scanRemove (fun r => decide (C.key r = k)) (hash k % t.length) 0 t else (false, t)

/-- hash_table/defs.hpp:129-135 `size`. -/
def size : Table R → Nat
  | [] => 0
  | b :: bs => b.size + size bs

/-- hash_table/defs.hpp:141-147 `for_each`: the records in the order of the calls. -/
def records : Table R → List R
  | [] => []
  | b :: bs => b.items ++ records bs

/-! ### histories -/

/-- One call on the table. -/
inductive Op (R K : Type)
  | add (a : R)
  | remove (k : K)
  | find (k : K)

/-- What a call returns. -/
inductive Out (R : Type)
  | unit
  | removed (b : Bool)
  | found (r : Option R)
deriving DecidableEq, Repr

/-- One call.  The hash function is given per call: for a type with an unstable hash it may differ. -/
def step [DecidableEq K] (C : Config R K) (unstable : Bool) (hash : K → Nat) (t : Table R) : Op R K → Option (Out R × Table R)
  | .add a => (add C hash t a).map fun t' => (.unit, t')
  | .remove k => (remove C unstable hash t k).map fun r => (.removed r.1, r.2)
  | .find k => (find C unstable hash t k).map fun r => (.found r.1, r.2)

/-- A sequence of calls, each with the hash function of its moment. -/
def run [DecidableEq K] (C : Config R K) (unstable : Bool) :
    List (Op R K × (K → Nat)) → Table R → Option (List (Out R) × Table R)
  | [], t => some ([], t)
  | o :: os, t =>
    (step C unstable o.2 t o.1).bind fun r => (run C unstable os r.2).map fun s => (r.1 :: s.1, s.2)

/-! ### `map_t` -/

/-- map/defs.hpp:36-63: a record with key and value. -/
abbrev Entry (K V : Type) := K × V

/-- map/defs.hpp:64: the table of a map. -/
def mapConfig (K V : Type) (limit : Nat) (grow : Nat → Nat) : Config (Entry K V) K := ⟨fun r => r.1, limit, grow⟩

section Map
variable {V : Type} [DecidableEq K] [DecidableEq V]

/-- map/defs.hpp:97-100 `operator[]const`. -/
def mapRead (C : Config (Entry K V) K) (hash : K → Nat) (dflt : V) (m : Table (Entry K V)) (k : K) :
    Option (V × Table (Entry K V)) :=
  (find C false hash m k).map fun r =>
    match r.1 with
    | some e => (e.2, r.2)
    | none => (dflt, r.2)

/-- map/defs.hpp:89-96 `operator[]`: the value referred to.  The last `none` is the use of a failed reference. -/
def mapAt (C : Config (Entry K V) K) (hash : K → Nat) (dflt : V) (m : Table (Entry K V)) (k : K) :
    Option (V × Table (Entry K V)) :=
  (find C false hash m k).bind fun r =>
    match r.1 with
    | some e => some (e.2, r.2)
    | none =>
      (add C hash r.2 (k, dflt)).bind fun m' =>
        (find C false hash m' k).bind fun s =>
          match s.1 with
          | some e => some (e.2, s.2)
          | none => none

/-- The assignment through the reference `operator[]` returned: it refers to the record at the front of its bucket. -/
def writeTop (v : V) : Bucket (Entry K V) → Bucket (Entry K V)
  | ⟨e :: es, n⟩ => ⟨(e.1, v) :: es, n⟩
  | ⟨[], n⟩ => ⟨[], n⟩

/-- `m[k] = v`. -/
def mapAssign (C : Config (Entry K V) K) (hash : K → Nat) (dflt : V) (m : Table (Entry K V)) (k : K) (v : V) :
    Option (Table (Entry K V)) :=
  (mapAt C hash dflt m k).map fun r => r.2.modify (hash k % r.2.length) (writeTop v)

/-- map/defs.hpp:126: the loop on one bucket; `n` bounds the passes (there are at most as many as records). -/
def shrinkBucket (dflt : V) : Nat → Bucket (Entry K V) → Bucket (Entry K V)
  | 0, b => b
  | n + 1, b =>
    match b.remove (fun e => decide (e.2 = dflt)) with
    | (true, b') => shrinkBucket dflt n b'
    | (false, _) => b

/-- map/defs.hpp:124-128 `shrink`. -/
def shrink (dflt : V) (m : Table (Entry K V)) : Table (Entry K V) := m.map fun b => shrinkBucket dflt b.items.length b

/-- map/defs.hpp:138-141, the loop of `operator==` over the records of this map, reading the other one. -/
def agreeLoop (C : Config (Entry K V) K) (hash : K → Nat) (dflt : V) :
    List (Entry K V) → Table (Entry K V) → Option (Bool × Table (Entry K V))
  | [], a => some (true, a)
  | e :: es, a =>
    (mapRead C hash dflt a e.1).bind fun r => if r.1 ≠ e.2 then some (false, r.2) else agreeLoop C hash dflt es r.2

/-- map/defs.hpp:132-146 `operator==` of two different objects: the answer and both maps afterwards. -/
def mapEq (C : Config (Entry K V) K) (hash : K → Nat) (dflt : V) (m a : Table (Entry K V)) :
    Option (Bool × Table (Entry K V) × Table (Entry K V)) :=
  if size (shrink dflt m) ≠ size (shrink dflt a) then some (false, shrink dflt m, shrink dflt a)
  else (agreeLoop C hash dflt (records (shrink dflt m)) (shrink dflt a)).map fun r => (r.1, shrink dflt m, r.2)

/-- map/defs.hpp:138-141 for one bucket of a map compared with itself: `find` moves the record just visited to the front of
the list that is being walked, so the next record is the one behind the front.  `cur` is the record reached. -/
def selfBucketLoop (C : Config (Entry K V) K) : Nat → Option (Entry K V) → List (Entry K V) → Option (Bool × List (Entry K V))
  | _, none, l => some (true, l)
  | 0, some _, _ => none
  | fuel + 1, some e, l =>
    match takeFirst (fun r => decide (C.key r = e.1)) l with
    | none => none
    | some r => if r.1.2 ≠ e.2 then some (false, r.1 :: r.2) else selfBucketLoop C fuel r.2.head? (r.1 :: r.2)

/-- map/defs.hpp:138-141: all buckets of a map compared with itself. -/
def selfLoop (C : Config (Entry K V) K) (fuel : Nat) : List (Bucket (Entry K V)) → Option Bool
  | [] => some true
  | b :: bs =>
    (selfBucketLoop C fuel b.items.head? b.items).bind fun r => if r.1 then selfLoop C fuel bs else some false

/-- map/defs.hpp:132-146 `operator==` with both sides the same object. -/
def mapEqSelf (C : Config (Entry K V) K) (dflt : V) (fuel : Nat) (m : Table (Entry K V)) : Option Bool :=
  selfLoop C fuel (shrink dflt m)

/-- One call on a map. -/
inductive MapOp (K V : Type)
  | read (k : K)
  | at (k : K)
  | assign (k : K) (v : V)
  | shrink
  | clear

/-- One call: the value returned, if any, and the map. -/
def mapStep (C : Config (Entry K V) K) (hash : K → Nat) (dflt : V) (m : Table (Entry K V)) :
    MapOp K V → Option (Option V × Table (Entry K V))
  | .read k => (mapRead C hash dflt m k).map fun r => (some r.1, r.2)
  | .at k => (mapAt C hash dflt m k).map fun r => (some r.1, r.2)
  | .assign k v => (mapAssign C hash dflt m k v).map fun m' => (none, m')
  | .shrink => some (none, shrink dflt m)
  | .clear => some (none, new)

/-- A sequence of calls. -/
def mapRun (C : Config (Entry K V) K) (hash : K → Nat) (dflt : V) :
    List (MapOp K V) → Table (Entry K V) → Option (List (Option V) × Table (Entry K V))
  | [], m => some ([], m)
  | o :: os, m =>
    (mapStep C hash dflt m o).bind fun r => (mapRun C hash dflt os r.2).map fun s => (r.1 :: s.1, s.2)

end Map

end ELC.Table
