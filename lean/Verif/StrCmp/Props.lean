import Verif.StrCmp.Lemmas
/-!
C61: equality and ordering of strings do not depend on the trees of nodes they are stored as.
-/
namespace ELC.StrCmp
open Str Str.Spec Hash Compare Compare.Spec Spec
variable {A : Type} [Inhabited A] [DecidableEq A]

/-! ### Equality -/

/-- `==` of two strings is equality of the characters. -/
theorem equal_correct_partial {hc : A → Word} {n m : Node A} (wn : WF hc n) (wm : WF hc m)
    (r : (chars n).length = (chars m).length → EqReady n m) :
    equalWith n m = some (decide (chars n = chars m)) := by
  unfold equalWith
  split
  · rename_i h; simp [cachesDiffer_ne wn wm h]
  · rw [size_eq hc n wn, size_eq hc m wm]
    split
    · rename_i h
      have : chars n ≠ chars m := fun e => h (by rw [e])
      simp [this]
    · rename_i h
      exact eqBase_ok hc n m wn wm (r (by simpa using h)) (by simpa using h)

/-- Trees without erasures behind other characters and without empty runs can be compared. -/
theorem eqReady_of_plain : ∀ n m : Node A, NoInnerErase n → NoInnerErase m → NoEmptyRun n →
    EqReady n m := by
  intro n
  induction n with
  | null =>
    intro m en em _
    have := sequential_of_noInner m em
    cases m <;> exact ⟨trivial, this⟩
  | comn h a =>
    intro m en em _
    have := sequential_of_noInner m em
    cases m <;> first | trivial | exact ⟨trivial, this⟩
  | const h a =>
    intro m en em _
    have := sequential_of_noInner m em
    cases m <;> first | trivial | exact ⟨trivial, this⟩
  | same h s v =>
    intro m en em hr
    have := sequential_of_noInner m em
    cases m <;> first | exact Or.inl hr | exact ⟨trivial, this⟩
  | substr h t b s ih =>
    intro m en em hr
    have h1 := sequential_of_noInner _ en
    have h2 := sequential_of_noInner m em
    cases m
    case substr h' t' b' s' =>
      exact ⟨fun _ => ⟨⟨sequential_of_noInner t en, startOk_of_noInner t en _⟩,
        ⟨sequential_of_noInner t' em, startOk_of_noInner t' em _⟩⟩, fun _ => ⟨en, em⟩⟩
    all_goals exact ⟨h1, h2⟩
  | head h a t ts u ih =>
    intro m en em hr
    have h1 := sequential_of_noInner _ en
    have h2 := sequential_of_noInner m em
    cases m
    case head h' a' t' ts' u' => exact ⟨fun _ => ih t' en em hr, fun _ => ⟨h1, h2⟩⟩
    all_goals exact ⟨h1, h2⟩
  | endA h a t ts u ih =>
    intro m en em hr
    have h1 := sequential_of_noInner _ en
    have h2 := sequential_of_noInner m em
    cases m
    case endA h' a' t' ts' u' => exact ⟨fun _ => ih t' en em hr, fun _ => ⟨h1, h2⟩⟩
    all_goals exact ⟨h1, h2⟩
  | sum h x y xs ys ihx ihy =>
    intro m en em hr
    have h1 := sequential_of_noInner _ en
    have h2 := sequential_of_noInner m em
    cases m
    case sum h' x' y' xs' ys' =>
      exact ⟨fun _ => ⟨ihx x' en.1 em.1 hr.1, ihy y' en.2 em.2 hr.2⟩, fun _ => ⟨h1, h2⟩⟩
    all_goals exact ⟨h1, h2⟩
  | erased h t ts p s ih =>
    intro m en em hr
    have h1 := sequential_of_noInner _ en
    have h2 := sequential_of_noInner m em
    cases m
    case erased h' t' ts' p' s' =>
      exact ⟨fun _ => ⟨⟨sequential_of_noInner t en.1, startOk_of_noInner t en.1 _⟩,
        ⟨sequential_of_noInner t' em.1, startOk_of_noInner t' em.1 _⟩⟩, fun _ => ⟨h1, h2⟩⟩
    all_goals exact ⟨h1, h2⟩
  | inserted h t i ts p s iht ihi =>
    intro m en em hr
    have h1 := sequential_of_noInner _ en
    have h2 := sequential_of_noInner m em
    cases m
    case inserted h' t' i' ts' p' s' =>
      exact ⟨fun _ => ⟨ihi i' en.2 em.2 hr.2, iht t' en.1 em.1 hr.1⟩, fun _ => ⟨h1, h2⟩⟩
    all_goals exact ⟨h1, h2⟩

/-- `==` for trees without erasures behind other characters and without empty runs. -/
theorem equal_plain_correct_partial {hc : A → Word} {n m : Node A} (wn : WF hc n) (wm : WF hc m)
    (en : NoInnerErase n) (em : NoInnerErase m) (hr : NoEmptyRun n) :
    equalWith n m = some (decide (chars n = chars m)) :=
  equal_correct_partial wn wm fun _ => eqReady_of_plain n m en em hr

/-- `==` with a view. -/
theorem equal_view_correct_partial {hc : A → Word} {n : Node A} (w : WF hc n) (q : Sequential n)
    (v : List A) : equalView n v = some (decide (chars n = v)) := by
  unfold equalView
  rw [size_eq hc n w]
  split
  · rename_i h
    have : chars n ≠ v := fun e => h (by rw [e])
    simp [this]
  · rename_i h
    have hl : (chars n).length = v.length := by simpa using h
    obtain ⟨a, ea, ca⟩ := block_cur w q (Nat.zero_le _) (startOk_zero n)
    rw [ea, Option.bind_some, eqViewLoop_ok w q hl v.length 0 a ca (by omega) (by omega)]
    simp

/-- `==` of a non-empty string with a zero-terminated text. -/
theorem equal_text_correct_partial {hc : A → Word} {zero : A} {n : Node A} (w : WF hc n)
    (q : Sequential n) {s mem : List A} (ht : Terminated zero s mem) (hne : chars n ≠ []) :
    equalZ zero n mem = some (decide (chars n = s)) := by
  have hpos : 0 < (chars n).length := List.length_pos_iff.mpr hne
  obtain ⟨a, ea, ca⟩ := block_cur w q (Nat.zero_le _) (startOk_zero n)
  rw [equalZ, ea, Option.bind_some,
    eqZeroLoop_ok w q ht n.size 0 a ca (by rw [size_eq hc n w]; omega) hpos (by omega)]
  simp

/-- An empty string is not equal to the empty text. -/
theorem equal_text_refuted : ∃ (n : Node Nat) (mem : List Nat), WF (fun _ => 0#64) n ∧
    Terminated 0 [] mem ∧ chars n = [] ∧ equalZ 0 n mem = some false :=
  ⟨.null, [0], trivial, ⟨by simp, [], rfl⟩, rfl, by
    simp [equalZ, block]; rw [eqZeroLoop]; rfl⟩

/-- Two empty runs, left by removing all characters of "aa" and "bb", are not equal. -/
theorem equal_empty_runs_refuted : ∃ n m : Node Nat, WF (fun _ => 0#64) n ∧ WF (fun _ => 0#64) m ∧
    chars n = [] ∧ chars m = [] ∧ equalWith n m = some false :=
  ⟨.same fresh 0 1, .same fresh 0 2, by simp [WF, CacheOk, fresh], by simp [WF, CacheOk, fresh], rfl,
    rfl, by decide⟩

/-- "ab" + "cde" without the "d" is compared with "abce" by arrays: they are not found equal. -/
theorem equal_erased_refuted : ∃ n m : Node Nat, WF (fun _ => 0#64) n ∧ WF (fun _ => 0#64) m ∧
    chars n = chars m ∧ equalWith n m = some false := by
  refine ⟨.erased fresh (.sum fresh (.comn fresh [1, 2]) (.comn fresh [3, 4, 5]) 2 3) 5 3 1,
    .comn fresh [1, 2, 3, 5], by simp [WF, CacheOk, fresh, chars], by simp [WF, CacheOk, fresh],
    by decide, ?_⟩
  simp [equalWith, cachesDiffer, cacheOf, fresh, Node.size, eqBase, eqRange, block, slice, wsub]
  rw [eqLoop]; simp [equalN, advance, block, slice, wsub]
  rw [eqLoop]; simp [equalN]

/-! ### Ordering -/

/-- `<=>` of two strings is the order by length, then by content. -/
theorem order_correct_partial {cmp : A → A → Ordering} (hrefl : ∀ x, cmp x x = .eq)
    {hc : A → Word} {n m : Node A} (wn : WF hc n) (wm : WF hc m)
    (r : (chars n).length = (chars m).length → CmpReady n m) :
    ∃ o, compareWith cmp n m = some o ∧ ByLength cmp (chars n) (chars m) o := by
  unfold compareWith
  rw [size_eq hc n wn, size_eq hc m wm]
  rcases Nat.lt_trichotomy (chars n).length (chars m).length with h | h | h
  · have e : compare (chars n).length (chars m).length = .lt := Nat.compare_eq_lt.mpr h
    rw [e]; exact ⟨_, rfl, Or.inl ⟨h, rfl⟩⟩
  · have e : compare (chars n).length (chars m).length = .eq := Nat.compare_eq_eq.mpr h
    rw [e]
    exact ⟨_, cmpBase_ok hrefl hc n m wn wm (r h) h, lexO_byLength cmp h⟩
  · have e : compare (chars n).length (chars m).length = .gt := Nat.compare_eq_gt.mpr h
    rw [e]; exact ⟨_, rfl, Or.inr (Or.inl ⟨h, rfl⟩)⟩

/-- `<=>` with a view is the order by length, then by content. -/
theorem order_view_correct_partial {cmp : A → A → Ordering} {hc : A → Word} {n : Node A}
    (w : WF hc n) (q : Sequential n) (v : List A) :
    ∃ o, compareView cmp n v = some o ∧ ByLength cmp (chars n) v o := by
  unfold compareView
  rw [size_eq hc n w]
  rcases Nat.lt_trichotomy (chars n).length v.length with h | h | h
  · have e : compare (chars n).length v.length = .lt := Nat.compare_eq_lt.mpr h
    rw [e]; exact ⟨_, rfl, Or.inl ⟨h, rfl⟩⟩
  · have e : compare (chars n).length v.length = .eq := Nat.compare_eq_eq.mpr h
    rw [e]
    obtain ⟨a, ea, ca⟩ := block_cur w q (Nat.zero_le _) (startOk_zero n)
    refine ⟨lexO cmp (chars n) v, ?_, lexO_byLength cmp h⟩
    rw [ea, Option.bind_some, cmpViewLoop_ok w q h v.length 0 a ca (by omega) (by omega)]
    simp
  · have e : compare (chars n).length v.length = .gt := Nat.compare_eq_gt.mpr h
    rw [e]; exact ⟨_, rfl, Or.inr (Or.inl ⟨h, rfl⟩)⟩

/-- `<=>` of a non-empty string with a zero-terminated text finds them equal exactly when they
are. -/
theorem order_text_equal_correct_partial {cmp : A → A → Ordering}
    (hcmp : ∀ x y, cmp x y = .eq ↔ x = y) {hc : A → Word} {zero : A} {n : Node A} (w : WF hc n)
    (q : Sequential n) {s mem : List A} (ht : Terminated zero s mem) (hne : chars n ≠ []) :
    ∃ o, compareZ cmp zero n mem = some o ∧ (o = .eq ↔ chars n = s) := by
  have hpos : 0 < (chars n).length := List.length_pos_iff.mpr hne
  obtain ⟨a, ea, ca⟩ := block_cur w q (Nat.zero_le _) (startOk_zero n)
  rw [compareZ, ea, Option.bind_some]
  have := cmpZeroLoop_ok hcmp w q ht n.size 0 a ca (by rw [size_eq hc n w]; omega) hpos (by omega)
  simpa using this

/-- Substrings "bc" of "abc" and of "abcd" are equal, but the first is ordered before the second. -/
theorem order_substring_refuted : ∃ n m : Node Nat, WF (fun _ => 0#64) n ∧ WF (fun _ => 0#64) m ∧
    chars n = chars m ∧ equalWith n m = some true ∧ compareWith compare n m = some .lt := by
  refine ⟨.substr fresh (.comn fresh [1, 2, 3]) 1 2, .substr fresh (.comn fresh [1, 2, 3, 4]) 1 2,
    by simp [WF, CacheOk, fresh, chars], by simp [WF, CacheOk, fresh, chars],
    by decide, ?_, ?_⟩
  · simp [equalWith, cachesDiffer, cacheOf, fresh, Node.size, eqBase, eqRange, block, slice, wsub]
    rw [eqLoop]; simp [equalN, advance, block, slice, wsub]
    rw [eqLoop]; simp
  · simp [compareWith, fresh, Node.size, cmpBase, cmpRange, block, slice, wsub]
    rw [cmpLoop]; simp [compareN, advance, block, slice, wsub]; decide

/-- "abcd" and "abce", both with "x" inserted at 1, are ordered as equal: only the first two
characters after the insertion are compared. -/
theorem order_inserted_refuted : ∃ n m : Node Nat, WF (fun _ => 0#64) n ∧ WF (fun _ => 0#64) m ∧
    chars n ≠ chars m ∧ compareWith compare n m = some .eq := by
  refine ⟨.inserted fresh (.comn fresh [1, 2, 3, 4]) (.comn fresh [9]) 4 1 1,
    .inserted fresh (.comn fresh [1, 2, 3, 5]) (.comn fresh [9]) 4 1 1,
    by simp [WF, CacheOk, fresh, chars], by simp [WF, CacheOk, fresh, chars],
    by decide, ?_⟩
  simp [compareWith, Node.size, cmpBase, cmpRange, block, slice, wsub, thenR, compareSized, compareN]
  rw [cmpLoop]; simp [compareN, advance, block, slice, wsub]
  rw [cmpLoop]; simp
  rw [cmpLoop]; simp [compareN, advance, block, slice, wsub]
  rw [cmpLoop]; simp

/-- Ordering with a zero-terminated text is neither the order by length nor the dictionary order:
"b" comes after "ab", and "ab" comes after "b". -/
theorem order_text_refuted : ∃ (n m : Node Nat) (tn tm : List Nat),
    WF (fun _ => 0#64) n ∧ WF (fun _ => 0#64) m ∧
    Terminated 0 (chars n) tn ∧ Terminated 0 (chars m) tm ∧
    compareZ compare 0 n tm = some .gt ∧ compareZ compare 0 m tn = some .gt := by
  refine ⟨.comn fresh [2], .comn fresh [1, 2], [2, 0], [1, 2, 0], by simp [WF, CacheOk, fresh],
    by simp [WF, CacheOk, fresh], ⟨by simp [chars], [], rfl⟩, ⟨by simp [chars], [], rfl⟩, ?_, ?_⟩
  · simp [compareZ, block, slice, wsub, Node.size]
    rw [cmpZeroLoop]; simp [comparePart, comparePartLoop, Node.size]; decide
  · simp [compareZ, block, slice, wsub, Node.size]
    rw [cmpZeroLoop]; simp [comparePart, comparePartLoop, Node.size]

/-! ### Non-trivial cases -/

example : ∃ n m : Node Nat, n ≠ m ∧ chars n = chars m ∧ WF (fun _ => 0#64) n ∧ WF (fun _ => 0#64) m ∧
    EqReady n m ∧ CmpReady n m :=
  ⟨.sum fresh (.erased fresh (.comn fresh [1, 2, 3]) 3 1 1) (.same fresh 3 7) 2 3,
    .endA fresh [7, 7, 0] (.head fresh [0, 1] (.const fresh [3, 7]) 2 1) 3 2,
    by decide, by decide, by simp [WF, CacheOk, fresh, chars], by simp [WF, CacheOk, fresh, chars],
    by simp [EqReady, Sequential, Flat], by simp [CmpReady, Sequential, Flat]⟩

example : ∃ n m : Node Nat, WF (fun _ => 0#64) n ∧ WF (fun _ => 0#64) m ∧
    (chars n).length = (chars m).length ∧ chars n ≠ chars m ∧ CmpReady n m :=
  ⟨.inserted fresh (.comn fresh [1, 2]) (.comn fresh [9, 8]) 2 1 2,
    .inserted fresh (.comn fresh [1, 3]) (.comn fresh [9, 8]) 2 1 2,
    by simp [WF, CacheOk, fresh, chars], by simp [WF, CacheOk, fresh, chars], by decide, by decide,
    by simp [CmpReady, ReadsFrom, Sequential, StartOk]⟩

end ELC.StrCmp
