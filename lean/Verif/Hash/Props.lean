import Verif.Hash.Lemmas

/-! Properties C26 and C27: the array hash. -/
namespace ELC.Hash

/-- C26, closed form: `hash(a,size)` is the XOR over the elements of their hash rotated by
their position plus one, for every array and every element hash. -/
theorem hashArray_closed_form {α : Type} (h : α → Word) (a : List α) :
    hashArray h a = Spec.arrayHash h a := by
  rw [hashArray, withCalculatedBefore_eq, hashNothing, BitVec.zero_xor]; rfl

/-- C26: the hash of a concatenation is obtained from the hashes of the parts by
`merge_array_hash_results`. -/
theorem merge_hash_append {α : Type} (h : α → Word) (a b : List α) :
    mergeArrayHashResults (hashArray h a) a.length (hashArray h b) b.length =
      hashArray h (a ++ b) := by
  simp only [hashArray_closed_form, mergeArrayHashResults, rotl_eq, Spec.arrayHash]
  rw [arrayHashFrom_append, arrayHashFrom_shift]

/-- C26: continuing the hash of `a` over `b` with `with_calculated_before` gives the hash of the
concatenation; the result does not depend on where the array is split. -/
theorem with_calculated_before_append {α : Type} (h : α → Word) (a b : List α) :
    withCalculatedBefore h (hashArray h a) a.length b = hashArray h (a ++ b) := by
  rw [withCalculatedBefore_eq, hashArray_closed_form, hashArray_closed_form, Spec.arrayHash,
    Spec.arrayHash, arrayHashFrom_append, Nat.zero_add]

/-- C26, consequence: any two ways of cutting the same array give the same merged hash. -/
theorem merge_hash_split_independent {α : Type} (h : α → Word) (a b c d : List α)
    (heq : a ++ b = c ++ d) :
    mergeArrayHashResults (hashArray h a) a.length (hashArray h b) b.length =
      mergeArrayHashResults (hashArray h c) c.length (hashArray h d) d.length := by
  rw [merge_hash_append, merge_hash_append, heq]

example : mergeArrayHashResults (hashArray (BitVec.ofNat 64) [1, 2]) 2
    (hashArray (BitVec.ofNat 64) [7]) 1 = hashArray (BitVec.ofNat 64) [1, 2, 7] := by decide

example : hashArray (BitVec.ofNat 64) [1, 2, 7] ≠ hashArray (BitVec.ofNat 64) [2, 1, 7] := by decide

/-- C27: the shortcut for `n` equal elements returns the hash of the expanded array. -/
theorem repeat_times_eq_hash_replicate {α : Type} (h : α → Word) (x : α) (n : Nat) :
    repeatTimes (h x) n = hashArray h (List.replicate n x) := by
  rw [repeatTimes_eq, hashArray_closed_form, Spec.arrayHash, arrayHashFrom_replicate]

/-- C27, consequence: the hash of a run is periodic with period 128. -/
theorem repeat_times_period {α : Type} (h : α → Word) (x : α) (n : Nat) :
    hashArray h (List.replicate (n + 128) x) = hashArray h (List.replicate n x) := by
  rw [← repeat_times_eq_hash_replicate, ← repeat_times_eq_hash_replicate, repeatTimes_eq,
    repeatTimes_eq, ← rotSum_mod, Nat.add_mod_right, rotSum_mod]

example : repeatTimes 5#64 3 = hashArray (fun _ : Nat => 5#64) [0, 0, 0] := by decide
example : repeatTimes 7#64 70 ≠ 0#64 := by decide

end ELC.Hash
