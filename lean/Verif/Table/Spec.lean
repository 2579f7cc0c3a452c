import Verif.Table.Model
/-! What a table of records and a map are expected to do. -/
namespace ELC.Table.Spec

variable {R K V : Type} [DecidableEq K]

/-- The plain table: the records present, the latest first. -/
def step (key : R → K) (s : List R) : Op R K → Out R × List R
  | .add a => (.unit, a :: s)
  | .remove k => (.removed (s.any fun r => decide (key r = k)), s.eraseP fun r => decide (key r = k))
  | .find k => (.found (s.find? fun r => decide (key r = k)), s)

/-- A history on the plain table: what the calls return, and the records left. -/
def run (key : R → K) : List (Op R K) → List R → List (Out R) × List R
  | [], s => ([], s)
  | o :: os, s => ((step key s o).1 :: (run key os (step key s o).2).1, (run key os (step key s o).2).2)

/-- No call adds a record whose key is already present. -/
def NoDuplicates (key : R → K) : List (Op R K) → List R → Prop
  | [], _ => True
  | o :: os, s => (∀ a, o = .add a → ∀ r ∈ s, key r ≠ key a) ∧ NoDuplicates key os (step key s o).2

/-- How many records a history adds. -/
def adds : List (Op R K) → Nat
  | [] => 0
  | .add _ :: os => adds os + 1
  | _ :: os => adds os

/-- The keys present, as often as they are. -/
def keyStep (key : R → K) (s : List K) : Op R K → List K
  | .add a => key a :: s
  | .remove k => s.erase k
  | .find _ => s

/-- What a call reports matches the keys present: a removal succeeds exactly if the key is there, a search finds a record
with that key exactly if it is there. -/
def Reports (key : R → K) (s : List K) : Op R K → Out R → Prop
  | .add _, o => o = .unit
  | .remove k, o => o = .removed (decide (k ∈ s))
  | .find k, o => ∃ r, o = .found r ∧ (r.isSome ↔ k ∈ s) ∧ ∀ x, r = some x → key x = k

/-- All reports of a history match. -/
def AllReport (key : R → K) : List (Op R K) → List (Out R) → List K → Prop
  | [], outs, _ => outs = []
  | o :: os, outs, s => ∃ x xs, outs = x :: xs ∧ Reports key s o x ∧ AllReport key os xs (keyStep key s o)

/-- The keys left after a history. -/
def keysAfter (key : R → K) : List (Op R K) → List K → List K
  | [], s => s
  | o :: os, s => keysAfter key os (keyStep key s o)

/-- The plain table that also knows its number of buckets: if more records than the limit would share the bucket of a new one, the
number grows, and all records change to the opposite order. -/
def growStep (C : Config R K) (hash : K → Nat) (s : Nat × List R) : Op R K → Out R × (Nat × List R)
  | .add a =>
    (.unit, if C.limit < (a :: s.2).countP (fun r => decide (hash (C.key r) % s.1 = hash (C.key a) % s.1))
      then (C.grow s.1, (a :: s.2).reverse) else (s.1, a :: s.2))
  | .remove k => (.removed (s.2.any fun r => decide (C.key r = k)), s.1, s.2.eraseP fun r => decide (C.key r = k))
  | .find k => (.found (s.2.find? fun r => decide (C.key r = k)), s)

/-- A history on it. -/
def growRun (C : Config R K) (hash : K → Nat) : List (Op R K) → Nat × List R → List (Out R) × (Nat × List R)
  | [], s => ([], s)
  | o :: os, s => ((growStep C hash s o).1 :: (growRun C hash os (growStep C hash s o).2).1,
      (growRun C hash os (growStep C hash s o).2).2)

/-- A map is a function, initially the default everywhere. -/
def mapStep (dflt : V) (f : K → V) : MapOp K V → Option V × (K → V)
  | .read k => (some (f k), f)
  | .at k => (some (f k), f)
  | .assign k v => (none, fun j => if j = k then v else f j)
  | .shrink => (none, f)
  | .clear => (none, fun _ => dflt)

/-- A history on the function. -/
def mapRun (dflt : V) : List (MapOp K V) → (K → V) → List (Option V) × (K → V)
  | [], f => ([], f)
  | o :: os, f => ((mapStep dflt f o).1 :: (mapRun dflt os (mapStep dflt f o).2).1, (mapRun dflt os (mapStep dflt f o).2).2)

end ELC.Table.Spec
