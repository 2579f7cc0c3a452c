import Verif.StrEdit.Lemmas
/-!
C45: edits of a string are the edits of a plain sequence, whichever nodes are shared.

`WF hc n` says that the tree is in order; it puts no condition on which nodes are shared or which
hashes are cached. `gold` is how buffers grow, and never shrinks them.
-/
namespace ELC.StrEdit
open Hash Str Str.Spec Spec
variable {A : Type} [Inhabited A] {hc : A → Word} {gold : Nat → Nat}

/-! ### Adding at the ends -/

/-- Characters added at the end. -/
theorem push_back_correct (hg : ∀ n, n ≤ gold n) {n : Node A} (w : WF hc n) (str : List A) :
    ∃ r, endV gold n str = some r ∧ WF hc r ∧ chars r = chars n ++ str := endV_ok hg str n w

/-- Characters added at the front. -/
theorem push_front_correct (hg : ∀ n, n ≤ gold n) {n : Node A} (w : WF hc n) (str : List A) :
    ∃ r, beginV gold n str = some r ∧ WF hc r ∧ chars r = str ++ chars n := beginV_ok hg str n w

/-- A string added at the end. -/
theorem push_back_string_correct (hg : ∀ n, n ≤ gold n) {n str : Node A} (w : WF hc n)
    (ws : WF hc str) :
    ∃ r, endP gold n str = some r ∧ WF hc r ∧ chars r = chars n ++ chars str := endP_ok hg ws n w

/-- A string added at the front. -/
theorem push_front_string_correct (hg : ∀ n, n ≤ gold n) {n str : Node A} (w : WF hc n)
    (ws : WF hc str) :
    ∃ r, beginP gold n str = some r ∧ WF hc r ∧ chars r = chars str ++ chars n :=
  beginP_ok hg ws n w

/-- Making room in advance changes no characters. -/
theorem pre_alloc_correct {n : Node A} (w : WF hc n) (k : Nat) :
    (WF hc (preAllocEnd n k) ∧ chars (preAllocEnd n k) = chars n) ∧
    (WF hc (preAllocBegin n k) ∧ chars (preAllocBegin n k) = chars n) :=
  ⟨preAllocEnd_ok w k, preAllocBegin_ok w k⟩

/-! ### Insertion and erasure -/

/-- A string put in at any position. -/
theorem insert_string_correct {n str : Node A} (w : WF hc n) (ws : WF hc str) {pos : Nat}
    (hp : pos ≤ (chars n).length) :
    ∃ r, insertP n pos str = some r ∧ WF hc r ∧
      chars r = (chars n).take pos ++ chars str ++ (chars n).drop pos := insertP_ok w ws hp

/-- A range taken out. -/
theorem erase_correct {n : Node A} (w : WF hc n) {pos k : Nat} (hp : pos + k ≤ (chars n).length) :
    WF hc (erase n pos k) ∧ chars (erase n pos k) = (chars n).take pos ++ (chars n).drop (pos + k) :=
  erase_ok n pos k w hp

/-- Characters put in at any position, on trees that keep clear of two defects of `do_insert`.
Missing: the trees of `insert_end_refuted` and `insert_overlap_refuted`. -/
theorem insert_correct_partial (hg : ∀ n, n ≤ gold n) {n : Node A} (w : WF hc n) (str : List A)
    {pos : Nat} (hp : pos ≤ (chars n).length) (s : InsertSafe n pos str.length) :
    ∃ r, insertV gold n pos str = some r ∧ WF hc r ∧
      chars r = (chars n).take pos ++ str ++ (chars n).drop pos := insertV_ok hg str n pos w hp s

/-- Characters put in are right wherever no node of the string itself is exclusively owned. -/
theorem insert_shared_correct (hg : ∀ n, n ≤ gold n) {n : Node A} (w : WF hc n) (str : List A)
    {pos : Nat} (hp : pos ≤ (chars n).length) (s : n.uniq = false) :
    ∃ r, insertV gold n pos str = some r ∧ WF hc r ∧
      chars r = (chars n).take pos ++ str ++ (chars n).drop pos := by
  refine insertV_ok hg str n pos w hp ?_
  cases n <;> simp_all [InsertSafe, Node.uniq]

/-- An end node asked to insert before its own characters inserts in the wrong place:
end_apply_string_data_t.hpp:142 takes the number of its own characters from the position. -/
theorem insert_end_refuted : ∃ n r : Node Nat, WF (fun _ => 0#64) n ∧ chars n = [1, 2, 3] ∧
    insertV id n 1 [9] = some r ∧ chars r = [9, 1, 2, 3] :=
  ⟨.endA fresh [3] (.comn fresh [1, 2]) 2 1, _,
    by simp [WF, CacheOk, fresh, chars], by decide, rfl, by decide⟩

/-- A buffer with room for the new characters moves the ones behind them with `memcpy` between
overlapping ranges: end_apply_string_data_t.hpp:148, head_apply_string_data_t.hpp:131. -/
theorem insert_overlap_refuted : (∃ n : Node Nat, WF (fun _ => 0#64) n ∧
      chars n = [1, 2, 3, 4] ∧ insertV id n 2 [9] = none) ∧
    ∃ n : Node Nat, WF (fun _ => 0#64) n ∧ chars n = [1, 2, 3, 4] ∧ insertV id n 2 [9] = none :=
  ⟨⟨.endA fresh [2, 3, 4, 0] (.comn fresh [1]) 1 3, by simp [WF, CacheOk, fresh, chars],
      by decide, by decide⟩,
    .head fresh [0, 1, 2, 3] (.comn fresh [4]) 1 3, by simp [WF, CacheOk, fresh, chars],
      by decide, by decide⟩

/-! ### Removing at the ends -/

/-- Removing at the front is right exactly when it changes no node which another string reaches. -/
theorem remove_front_characterised (hg : ∀ n, n ≤ gold n) {n : Node A} (w : WF hc n) {k : Nat}
    (hk : k ≤ (chars n).length) :
    (FrontSafe true n k → ∃ r, removeFront gold true n k = some r ∧ WF hc r ∧
      chars r = (chars n).drop k) ∧
    (¬ FrontSafe true n k → removeFront gold true n k = none) :=
  ⟨removeFront_ok hg n true k w hk, removeFront_unsafe n true k⟩

/-- Removing at the front of a string with no shared node. -/
theorem remove_front_owned_partial (hg : ∀ n, n ≤ gold n) {n : Node A} (w : WF hc n) {k : Nat}
    (hk : k ≤ (chars n).length) (u : AllUnique n) :
    ∃ r, removeFront gold true n k = some r ∧ WF hc r ∧ chars r = (chars n).drop k :=
  removeFront_ok hg n true k w hk (frontSafe_of_unique n u k)

/-- Removing at the back, on trees where no shared node is in the way, and no insertion is asked for
more characters than lie behind it. Missing: the trees of `remove_back_inserted_refuted` and
`remove_shared_refuted`. -/
theorem remove_back_partial (hg : ∀ n, n ≤ gold n) {n : Node A} (w : WF hc n) {k : Nat}
    (hk : k ≤ (chars n).length) (s : BackSafe true n k) :
    ∃ r, removeBack gold true n k = some r ∧ WF hc r ∧
      chars r = (chars n).take ((chars n).length - k) := removeBack_ok hg n true k w hk s

/-- Removing at the back of a string with no shared node and no insertion. -/
theorem remove_back_owned_partial (hg : ∀ n, n ≤ gold n) {n : Node A} (w : WF hc n) {k : Nat}
    (hk : k ≤ (chars n).length) (u : AllUnique n) (ni : NoInserted n) :
    ∃ r, removeBack gold true n k = some r ∧ WF hc r ∧
      chars r = (chars n).take ((chars n).length - k) :=
  removeBack_ok hg n true k w hk (backSafe_of_unique n u ni k)

/-- Removing past the first part of a shared concatenation changes the second part in place, so that
the other owner of the concatenation changes too: sum_string_data_t.hpp:166, 180. -/
theorem remove_shared_refuted :
    (∃ n : Node Nat, WF (fun _ => 0#64) n ∧ n.uniq = false ∧ chars n = [1, 2, 2, 2] ∧
      removeFront id true n 2 = none) ∧
    ∃ n : Node Nat, WF (fun _ => 0#64) n ∧ n.uniq = false ∧ chars n = [2, 2, 2, 1] ∧
      removeBack id true n 2 = none :=
  ⟨⟨.sum ⟨false, none⟩ (.comn fresh [1]) (.same fresh 3 2) 1 3, by simp [WF, CacheOk, fresh, chars],
      rfl, by decide, by decide⟩,
    .sum ⟨false, none⟩ (.same fresh 3 2) (.comn fresh [1]) 3 1, by simp [WF, CacheOk, fresh, chars],
      rfl, by decide, by decide⟩

/-- Removing at the back of a string with an insertion takes the wrong characters:
inserted_string_data_t.hpp:263-264. -/
theorem remove_back_inserted_refuted : ∃ n r : Node Nat, WF (fun _ => 0#64) n ∧ AllUnique n ∧
    chars n = [1, 8, 9, 2] ∧ removeBack id true n 1 = some r ∧ chars r = [1, 2] :=
  ⟨.inserted fresh (.comn fresh [1, 2]) (.comn fresh [8, 9]) 2 1 2, _,
    by simp [WF, CacheOk, fresh, chars], by simp [AllUnique, fresh], by decide, rfl, by decide⟩

/-! ### Popping at the ends -/

/-- Popping at the front gives the popped characters and leaves the others, on trees where no head
node takes over the buffer of its child meanwhile. Missing: the trees of `pop_front_head_refuted`. -/
theorem pop_front_partial (hg : ∀ n, n ≤ gold n) {n : Node A} (w : WF hc n) {k : Nat}
    (hk : k ≤ (chars n).length) (s : PopFrontSafe n k) :
    ∃ x r, popFront gold n k = some (x, r) ∧ WF hc x ∧ chars x = (chars n).take k ∧ WF hc r ∧
      chars r = (chars n).drop k := popFront_ok hg n k w hk s

/-- Popping at the back gives the popped characters and leaves the others, on trees that keep clear
of the defects of the `pop_back_…_refuted` theorems. -/
theorem pop_back_partial (hg : ∀ n, n ≤ gold n) {n : Node A} (w : WF hc n) {k : Nat}
    (hk : k ≤ (chars n).length) (s : PopBackSafe n k) :
    ∃ x r, popBack gold n k = some (x, r) ∧ WF hc x ∧
      chars x = (chars n).drop ((chars n).length - k) ∧ WF hc r ∧
      chars r = (chars n).take ((chars n).length - k) := popBack_ok hg n k w hk s

/-- Popping is right on every string whose own node is shared. -/
theorem pop_shared_correct (hg : ∀ n, n ≤ gold n) {n : Node A} (w : WF hc n) {k : Nat}
    (hk : k ≤ (chars n).length) (s : n.uniq = false) :
    (∃ x r, popFront gold n k = some (x, r) ∧ WF hc x ∧ chars x = (chars n).take k ∧ WF hc r ∧
      chars r = (chars n).drop k) ∧
    ∃ x r, popBack gold n k = some (x, r) ∧ WF hc x ∧
      chars x = (chars n).drop ((chars n).length - k) ∧ WF hc r ∧
      chars r = (chars n).take ((chars n).length - k) := by
  refine ⟨popFront_ok hg n k w hk ?_, popBack_ok hg n k w hk ?_⟩ <;>
    cases n <;> simp_all [PopFrontSafe, PopBackSafe, Node.uniq]

/-- A head node above a head node exchanges its buffer before the popped characters are read from
it: head_apply_string_data_t.hpp:263-265. -/
theorem pop_front_head_refuted : ∃ (n x r : Node Nat), WF (fun _ => 0#64) n ∧
    chars n = [1, 2, 3] ∧ popFront id n 1 = some (x, r) ∧ chars x = [7] :=
  ⟨.head fresh [1] (.head fresh [7, 2] (.comn fresh [3]) 1 1) 2 1, .comn fresh [7], _,
    by simp [WF, CacheOk, fresh, chars], by decide, rfl, by decide⟩

/-- The same at the back: end_apply_string_data_t.hpp:277-279. -/
theorem pop_back_end_refuted : ∃ (n x r : Node Nat), WF (fun _ => 0#64) n ∧
    chars n = [1, 2, 3] ∧ popBack id n 1 = some (x, r) ∧ chars x = [7] :=
  ⟨.endA fresh [3] (.endA fresh [2, 7] (.comn fresh [1]) 1 1) 2 1, .comn fresh [7], _,
    by simp [WF, CacheOk, fresh, chars], by decide, rfl, by decide⟩

/-- A concatenation compares the number of characters with the size of the wrong part:
sum_string_data_t.hpp:209. -/
theorem pop_back_sum_refuted : ∃ (n x r : Node Nat), WF (fun _ => 0#64) n ∧
    chars n = [1, 2, 3, 4, 5] ∧ popBack id n 2 = some (x, r) ∧ chars x = [3, 4, 5] :=
  ⟨.sum fresh (.comn fresh [1, 2]) (.comn fresh [3, 4, 5]) 2 3, .comn fresh [3, 4, 5], _,
    by simp [WF, CacheOk, fresh, chars], by decide, rfl, by decide⟩

/-- A head node asks its child for more characters than it has: head_apply_string_data_t.hpp:272. -/
theorem pop_back_head_refuted : ∃ (n x r : Node Nat), WF (fun _ => 0#64) n ∧
    chars n = [1, 2, 3] ∧ popBack id n 2 = some (x, r) ∧ chars x ≠ [2, 3] :=
  ⟨.head fresh [1, 2] (.same fresh 1 3) 1 2, _, _,
    by simp [WF, CacheOk, fresh, chars], by decide, rfl, by decide⟩

/-- Popping at the back of an insertion at the end pops at its front:
inserted_string_data_t.hpp:308. -/
theorem pop_back_inserted_refuted : ∃ (n x r : Node Nat), WF (fun _ => 0#64) n ∧
    chars n = [1, 8, 9] ∧ popBack id n 1 = some (x, r) ∧ chars x = [8] :=
  ⟨.inserted fresh (.comn fresh [1]) (.comn fresh [8, 9]) 1 1 2, _, _,
    by simp [WF, CacheOk, fresh, chars], by decide, rfl, by decide⟩

/-! ### Assignment to one index -/

variable [DecidableEq A]

/-- Assignment changes the one character, on trees that keep clear of the defects of the
`assign_…_refuted` theorems. -/
theorem assign_partial (hg : ∀ n, n ≤ gold n) {n : Node A} (w : WF hc n) {i : Nat}
    (hi : i < (chars n).length) {a : A} (s : SetSafe n i a) :
    ∃ r, arecSet gold n i a = some r ∧ WF hc r ∧ chars r = (chars n).set i a :=
  arecSet_ok hg a n i w hi s

/-- A shared run of one character is changed for all its owners, and a run of one character keeps
the hash of the old character: same_value_compress_string_data_t.hpp:84. -/
theorem assign_run_refuted : (∃ n : Node Nat, WF (fun _ => 0#64) n ∧ chars n = [1] ∧
      arecSet id n 0 2 = none) ∧
    ∃ (hc : Nat → Word) (n r : Node Nat), WF hc n ∧ arecSet id n 0 2 = some r ∧
      getHash hc r ≠ some (hashOf hc (chars r)) :=
  ⟨⟨.same ⟨false, none⟩ 1 1, by simp [WF, CacheOk], by decide, by decide⟩,
    fun n => BitVec.ofNat 64 n,
    .same ⟨true, some (hashOf (fun n => BitVec.ofNat 64 n) [1])⟩ 1 1,
    .same ⟨true, some (hashOf (fun n => BitVec.ofNat 64 n) [1])⟩ 1 2,
    by simp [WF, CacheOk], rfl, by decide +kernel⟩

/-- Assignment near the end of a run of more than 512 characters records a size below zero
(same_value_compress_string_data_t.hpp:99): a character added afterwards is not found at the end. -/
theorem assign_long_run_refuted : ∃ n : Node Nat, WF (fun _ => 0#64) n ∧ (chars n).length = 600 ∧
    ((arecSet id n 599 2).bind fun r => (endP id r (.comn fresh [3])).bind fun r => arec r 600) =
      some 1 :=
  ⟨.same fresh 600 1, cacheOk_fresh _ _, by rw [chars, List.length_replicate],
    by decide +kernel⟩

/-- An insertion node hands its own pointer to its child; a child that takes its place frees it
while it is in use: inserted_string_data_t.hpp:164-169. -/
theorem assign_inserted_refuted : ∃ n : Node Nat, WF (fun _ => 0#64) n ∧ chars n = [1, 8, 2] ∧
    arecSet id n 0 5 = none :=
  ⟨.inserted fresh (.const fresh [1, 2]) (.comn fresh [8]) 2 1 1,
    by simp [WF, CacheOk, fresh, chars], by decide, by decide⟩

/-! ### Histories -/

/-- What happens to one string: its own edits, and in between anything that keeps its characters and
leaves its tree in order, such as nodes becoming shared or exclusively owned, hashes being cached,
and nodes being replaced by equal flat ones. -/
inductive Reaches (hc : A → Word) (gold : Nat → Nat) : Node A → List (Edit A) → Node A → Prop
  | done (n : Node A) : Reaches hc gold n [] n
  | other {n n' r : Node A} {es : List (Edit A)} (w : WF hc n') (e : chars n' = chars n)
      (t : Reaches hc gold n' es r) : Reaches hc gold n es r
  | edit {n n' r : Node A} {e : Edit A} {es : List (Edit A)}
      (hr : InRange hc (chars n).length e) (hs : Safe n e) (h : runEdit gold n e = some n')
      (t : Reaches hc gold n' es r) : Reaches hc gold n (e :: es) r

/-- After any history of edits the string is the plain sequence edited the same way, and its tree is
in order again. -/
theorem history_partial (hg : ∀ n, n ≤ gold n) {n r : Node A} {es : List (Edit A)} (w : WF hc n)
    (t : Reaches hc gold n es r) : WF hc r ∧ chars r = es.foldl onList (chars n) := by
  induction t with
  | done => exact ⟨w, rfl⟩
  | other w' e _ ih => rw [← e]; exact ih w'
  | edit hr hs h _ ih =>
    obtain ⟨n', e, wn, en⟩ := runEdit_ok hg w hr hs
    rw [e, Option.some.injEq] at h
    subst h
    rw [List.foldl_cons, ← en]
    exact ih wn

/-- Every edit in range on a tree it is right for has a result, so that a history can always go
on. -/
theorem edit_result_partial (hg : ∀ n, n ≤ gold n) {n : Node A} (w : WF hc n) {e : Edit A}
    (hr : InRange hc (chars n).length e) (hs : Safe n e) :
    ∃ r, runEdit gold n e = some r ∧ WF hc r ∧ chars r = onList (chars n) e := runEdit_ok hg w hr hs

/-! ### The hypotheses are met -/

/-- A tree with shared and exclusively owned nodes of seven kinds. -/
def editExample : Node Nat :=
  .inserted fresh
    (.sum fresh (.head ⟨true, none⟩ [0, 1, 2] (.comn ⟨false, none⟩ [3, 4]) 2 2)
      (.endA fresh [9, 0, 0] (.substr fresh (.const ⟨false, none⟩ [5, 6, 7, 8]) 1 2) 2 1) 4 3)
    (.same fresh 3 7) 7 2 3

example : chars editExample = [1, 2, 7, 7, 7, 3, 4, 6, 7, 9] := by decide
example : WF (fun _ => 0#64) editExample := by simp [editExample, WF, CacheOk, fresh, chars]
example : ∀ n : Nat, n ≤ id n := fun _ => Nat.le_refl _
example : InsertSafe editExample 3 4 ∧ InsertSafe editExample 1 4 := by
  simp [editExample, InsertSafe, fresh]
example : FrontSafe true editExample 1 ∧ ¬ FrontSafe true
    (.sum ⟨false, none⟩ (.comn fresh [1]) (.same fresh 3 2) 1 3 : Node Nat) 2 := by
  simp [editExample, FrontSafe, fresh]
example : BackSafe true editExample 2 := by simp [editExample, BackSafe, fresh]
example : PopFrontSafe editExample 1 := by simp [editExample, PopFrontSafe, fresh, UniqueHead]
example : PopBackSafe editExample 2 := by
  simp [editExample, PopBackSafe, fresh, UniqueEnd]
example : SetSafe editExample 6 3 := by simp [editExample, SetSafe, Stays, Node.uniq, fresh]
example : AllUnique (.sum fresh (.comn fresh [1]) (.same fresh 3 2) 1 3 : Node Nat) := by
  simp [AllUnique, fresh]

example : ∃ r, Reaches (fun _ => 0#64) id editExample
    [.removeBack 2, .assign 2 5, .pushFront [4, 4]] r ∧
      chars r = [4, 4, 1, 2, 5, 7, 7, 3, 4, 6] := by
  refine ⟨_, .edit (n' := .inserted changed
      (.sum changed (.head ⟨true, none⟩ [0, 1, 2] (.comn ⟨false, none⟩ [3, 4]) 2 2)
        (.substr changed (.const ⟨false, none⟩ [5, 6, 7, 8]) 1 1) 4 1) (.same fresh 3 7) 5 2 3)
    (Nat.le_of_ble_eq_true rfl) (by simp [editExample, Safe, BackSafe, fresh]) (by decide)
    (.other (n' := .inserted changed
      (.sum changed (.head ⟨true, none⟩ [0, 1, 2] (.comn ⟨false, none⟩ [3, 4]) 2 2)
        (.substr changed (.const ⟨false, none⟩ [5, 6, 7, 8]) 1 1) 4 1) (.comn fresh [7, 7, 7]) 5 2 3)
    (by simp [WF, CacheOk, fresh, changed, chars]) (by decide)
    (.edit (n' := .inserted changed
      (.sum changed (.head ⟨true, none⟩ [0, 1, 2] (.comn ⟨false, none⟩ [3, 4]) 2 2)
        (.substr changed (.const ⟨false, none⟩ [5, 6, 7, 8]) 1 1) 4 1) (.comn fresh [5, 7, 7]) 5 2 3)
    (Nat.le_of_ble_eq_true rfl) (by simp [Safe, SetSafe, Stays, Node.uniq, fresh, changed])
    (by decide) (.edit trivial trivial rfl (.done _)))), by decide⟩

end ELC.StrEdit
