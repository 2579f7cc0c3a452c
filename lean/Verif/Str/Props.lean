import Verif.Str.Lemmas
/-!
C44, C46 (nodes) and C62: reading, hashing and printing a string does not depend on the tree of
nodes it is stored as.
-/
namespace ELC.Str
open Hash Spec
variable {A : Type} [Inhabited A]

/-! ### C44 -/

/-- The length is the number of characters. -/
theorem length_correct {hc : A → Word} {n : Node A} (w : WF hc n) :
    n.size = (chars n).length := size_eq hc n w

/-- Indexing gives the character at the index. -/
theorem index_correct {hc : A → Word} {n : Node A} (w : WF hc n) {i : Nat}
    (hi : i < (chars n).length) : arec n i = (chars n)[i]? := arec_eq hc n w i hi

/-- A substring has the characters of the range, and is a tree in order. -/
theorem substring_correct {hc : A → Word} {n : Node A} (w : WF hc n) {b s : Nat}
    (hb : b + s ≤ (chars n).length) :
    ∃ r, getSubstr n b s = some r ∧ WF hc r ∧ chars r = ((chars n).drop b).take s :=
  getSubstr_ok hc n w b s hb

/-- Copying out a part gives the characters of the range, when the range is clear: it does not make
an insertion node copy from behind its insertion point. -/
theorem copy_part_clear_partial {hc : A → Word} {n : Node A} (w : WF hc n) {p k : Nat}
    (rc : RangeClear n p k) (hp : p + k ≤ (chars n).length) :
    copyPart n p k = some (((chars n).drop p).take k) := copyPart_clear hc n w p k rc hp

/-- Copying out a part gives the characters of the range, in trees without insertions. -/
theorem copy_part_correct_partial {hc : A → Word} {n : Node A} (w : WF hc n) (ni : NoInserted n)
    {p k : Nat} (hp : p + k ≤ (chars n).length) :
    copyPart n p k = some (((chars n).drop p).take k) := copyPart_ok hc n w ni p k hp

/-- Copying out a prefix is right also when insertions are on top. -/
theorem copy_prefix_correct_partial {hc : A → Word} {n : Node A} (w : WF hc n) (ni : InsertsOnTop n)
    {k : Nat} (hp : k ≤ (chars n).length) :
    copyPart n 0 k = some ((chars n).take k) := by
  have := copyPart_clear hc n w 0 k (rangeClear_of_onTop n ni k) (by omega)
  simpa [part] using this

/-- Making a string flat keeps its characters, when the whole of it is clear. -/
theorem flatten_clear_partial {hc : A → Word} {n : Node A} (w : WF hc n)
    (rc : RangeClear n 0 (chars n).length) :
    ∃ r, toComn n = some r ∧ WF hc r ∧ chars r = chars n :=
  ⟨_, toComn_clear w rc, cacheOk_fresh _ _, rfl⟩

/-- Making a string flat keeps its characters when insertions are on top. -/
theorem flatten_correct_partial {hc : A → Word} {n : Node A} (w : WF hc n) (ni : InsertsOnTop n) :
    ∃ r, toComn n = some r ∧ WF hc r ∧ chars r = chars n :=
  ⟨_, toComn_ok w ni, cacheOk_fresh _ _, rfl⟩

/-- "ab" with "XYZ" inserted at 1: "aXYZb". -/
def insertedExample : Node Nat :=
  .inserted fresh (.comn fresh [1, 2]) (.comn fresh [7, 8, 9]) 2 1 3

/-- The substring of two characters from 2 on of `insertedExample`. -/
def cutExample : Node Nat := .substr fresh insertedExample 2 2

/-- Ranges that are clear, of a string with an insertion: one from before the insertion point into
the inserted characters and beyond, and one behind the inserted characters. -/
example : RangeClear (.inserted fresh (.comn fresh [1, 2, 3, 4]) (.comn fresh [7, 8]) 4 2 2) 1 4 ∧
    RangeClear (.inserted fresh (.comn fresh [1, 2, 3, 4]) (.comn fresh [7, 8]) 4 2 2) 5 1 ∧
    copyPart (.inserted fresh (.comn fresh [1, 2, 3, 4]) (.comn fresh [7, 8]) 4 2 2) 1 4 =
      some [2, 7, 8, 3] := by
  refine ⟨?_, ?_, by decide⟩ <;> simp [RangeClear]

/-- A range that starts inside inserted characters is copied from the start of the insertion:
`"aXYZb".substr(2, 2)` is "YZ", but made flat it is "XY". -/
theorem copy_part_refuted : ∃ (n : Node Nat) (p k : Nat), WF (fun _ => 0#64) n ∧
    p + k ≤ (chars n).length ∧ copyPart n p k ≠ some (((chars n).drop p).take k) :=
  ⟨insertedExample, 2, 2, by simp [insertedExample, WF, CacheOk, fresh, chars], by decide, by decide⟩

theorem flatten_refuted : ∃ n r : Node Nat, WF (fun _ => 0#64) n ∧ toComn n = some r ∧
    chars n = [8, 9] ∧ chars r = [7, 8] :=
  ⟨cutExample, .comn fresh [7, 8], by simp [cutExample, insertedExample, WF, CacheOk, fresh, chars],
    by decide, by decide, by decide⟩

/-! ### C46, nodes -/

/-- The hash is the hash of the characters, when the whole string is clear. -/
theorem hash_clear_partial {hc : A → Word} {n : Node A} (w : WF hc n)
    (rc : RangeClear n 0 (chars n).length) :
    getHash hc n = some (Hash.Spec.arrayHash hc (chars n)) := (hashes_clear hc n w).1 rc

/-- The hash is the hash of the characters, when insertions are on top. -/
theorem hash_correct_partial {hc : A → Word} {n : Node A} (w : WF hc n) (ni : InsertsOnTop n) :
    getHash hc n = some (Hash.Spec.arrayHash hc (chars n)) :=
  hash_clear_partial w (rangeClear_of_onTop n ni _)

/-- Strings with the same characters have the same hash, however they are stored. -/
theorem equal_strings_equal_hash_partial {hc : A → Word} {n m : Node A} (wn : WF hc n) (wm : WF hc m)
    (nn : RangeClear n 0 (chars n).length) (nm : RangeClear m 0 (chars m).length)
    (e : chars n = chars m) : getHash hc n = getHash hc m := by
  rw [hash_clear_partial wn nn, hash_clear_partial wm nm, e]

/-- The hash of a text followed by a part of a string is the hash of both together. -/
theorem continued_hash_partial {hc : A → Word} {n : Node A} (w : WF hc n)
    (before : List A) {p k : Nat} (rc : RangeClear n p k) (hp : p + k ≤ (chars n).length) :
    othersHash hc n (Hash.Spec.arrayHash hc before) before.length p k =
      some (Hash.Spec.arrayHash hc (before ++ ((chars n).drop p).take k)) := by
  have h := (hashes_clear hc n w).2 (Hash.Spec.arrayHash hc before) before.length p k rc hp
  have e : cont hc (Hash.Spec.arrayHash hc before) before.length (part (chars n) p k) =
      Hash.Spec.arrayHash hc (before ++ ((chars n).drop p).take k) := by
    have h1 := hashOf_cont hc (before ++ ((chars n).drop p).take k)
    rw [cont_append, ← hashOf_cont, Nat.zero_add] at h1
    exact h1.symm
  exact h.trans (congrArg some e)

/-- Two strings with the same characters and different hashes: `"aXYZb".substr(2, 2)` and "YZ". -/
theorem equal_strings_equal_hash_refuted : ∃ (hc : Nat → Word) (n m : Node Nat), WF hc n ∧ WF hc m ∧
    chars n = chars m ∧ getHash hc n ≠ getHash hc m :=
  ⟨fun c => BitVec.ofNat 64 c, cutExample, .comn fresh [8, 9],
    by simp [cutExample, insertedExample, WF, CacheOk, fresh, chars],
    by simp [WF, CacheOk, fresh], by decide, by decide +kernel⟩

/-! ### C62: printing -/

/-- Printing writes the characters, in order, and ends. -/
theorem print_correct_partial {hc : A → Word} {n : Node A} (w : WF hc n) (q : Sequential n) {fuel : Nat}
    (hf : (chars n).length < fuel) : output n fuel 0 = some (chars n) := by
  have := output_ok w q fuel 0 (Nat.zero_le _) (startOk_zero n) (by omega)
  simpa using this

/-- "ab" + "cde" with the character at 3 erased: "abce". -/
def erasedExample : Node Nat :=
  .erased fresh (.sum fresh (.comn fresh [1, 2]) (.comn fresh [3, 4, 5]) 2 3) 5 3 1

/-- Printing "ab" + "cde" without the "d" writes "ab", then "cde", and then asks for the array at
position 6 of a text of 5 characters, whose size is computed as -1: there is no result, however
long the loop runs. -/
theorem print_refuted : ∃ n : Node Nat, WF (fun _ => 0#64) n ∧
    chars n = [1, 2, 3, 5] ∧ block n 2 = some [3, 4, 5] ∧ ∀ fuel, output n fuel 0 = none := by
  refine ⟨erasedExample, by simp [erasedExample, WF, CacheOk, fresh, chars], by decide, by decide, ?_⟩
  intro fuel
  match fuel with
  | 0 => rfl
  | 1 => rfl
  | 2 => rfl
  | f + 3 => rfl

/-! ### Non-trivial cases -/

/-- A tree with eight kinds of nodes. -/
def bigExample : Node Nat :=
  .inserted fresh
    (.sum fresh (.head fresh [0, 0, 5, 6] (.same fresh 3 7) 3 2)
      (.endA fresh [8, 9, 0] (.erased ⟨false, none⟩ (.const fresh [1, 2, 3]) 3 1 1) 2 2) 5 4)
    (.substr fresh (.comn fresh [10, 11, 12]) 1 2) 9 4 2

example : chars bigExample = [5, 6, 7, 7, 11, 12, 7, 1, 3, 8, 9] := by decide
example : WF (fun _ => 0#64) bigExample := by simp [bigExample, WF, CacheOk, fresh, chars]
example : InsertsOnTop bigExample := by simp [bigExample, InsertsOnTop, NoInserted]
example : arec bigExample 8 = some 3 := by decide
example : copyPart bigExample 0 7 = some [5, 6, 7, 7, 11, 12, 7] := by decide
example : ∃ n : Node Nat, WF (fun _ => 0#64) n ∧ Sequential n ∧ ¬ NoInnerErase n ∧
    output n 20 0 = some [1, 3, 8, 9] :=
  ⟨.endA fresh [8, 9, 0] (.erased ⟨false, none⟩ (.const fresh [1, 2, 3]) 3 1 1) 2 2,
    by simp [WF, CacheOk, fresh, chars], by simp [Sequential, Flat], by simp [NoInnerErase], by decide⟩
example : ∃ n m : Node Nat, n ≠ m ∧ chars n = chars m ∧ chars n ≠ [] ∧ InsertsOnTop n ∧
    InsertsOnTop m ∧ WF (fun _ => 0#64) n ∧ WF (fun _ => 0#64) m :=
  ⟨insertedExample, .comn fresh [1, 7, 8, 9, 2], by decide, by decide, by decide,
    by simp [insertedExample, InsertsOnTop, NoInserted], by simp [InsertsOnTop],
    by simp [insertedExample, WF, CacheOk, fresh, chars], by simp [WF, CacheOk, fresh]⟩

end ELC.Str
