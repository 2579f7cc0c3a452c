import Verif.Compare.Lemmas
import Mathlib.Order.Defs.LinearOrder
/-! Properties of equality, three-way comparison, `max` and `min`.  `none` is a read outside the memory given. -/
namespace ELC.Compare
open Spec
variable {α : Type}

/-! ### the specifications determine the result -/

theorem diff_unique {cmp : α → α → Ordering} {a b : List α} {i j : Nat} {o o' : Ordering} (h : DiffAt cmp a b i o)
    (h' : DiffAt cmp a b j o') : i = j ∧ o = o' := by
  obtain ⟨h1, x, y, h2, h3, h4, h5⟩ := h
  obtain ⟨h1', x', y', h2', h3', h4', h5'⟩ := h'
  have hij : i = j := by
    rcases Nat.lt_trichotomy i j with h | h | h
    · obtain ⟨u, v, e1, e2, e3⟩ := h1' i h
      rw [h2] at e1; rw [h3] at e2; cases e1; cases e2
      exact absurd (h4.trans e3) h5
    · exact h
    · obtain ⟨u, v, e1, e2, e3⟩ := h1 j h
      rw [h2'] at e1; rw [h3'] at e2; cases e1; cases e2
      exact absurd (h4'.trans e3) h5'
  subst hij
  rw [h2] at h2'; rw [h3] at h3'; cases h2'; cases h3'
  exact ⟨rfl, h4.trans h4'.symm⟩

theorem not_same_of_diff {cmp : α → α → Ordering} {a b : List α} {i n : Nat} {o : Ordering} (h : DiffAt cmp a b i o)
    (hs : SameTo cmp a b n) : n ≤ i := by
  apply Decidable.byContradiction
  intro hlt
  obtain ⟨_, x, y, h2, h3, h4, h5⟩ := h
  obtain ⟨u, v, e1, e2, e3⟩ := hs i (by omega)
  rw [h2] at e1; rw [h3] at e2; cases e1; cases e2
  exact h5 (h4.trans e3)

theorem diff_lt {cmp : α → α → Ordering} {a b : List α} {i : Nat} {o : Ordering} (h : DiffAt cmp a b i o) :
    i < a.length ∧ i < b.length := by
  obtain ⟨_, x, y, h2, h3, _⟩ := h
  exact ⟨(List.getElem?_eq_some_iff.1 h2).1, (List.getElem?_eq_some_iff.1 h3).1⟩

/-- Exactly one result is the dictionary order of two sequences. -/
theorem dictionary_unique {cmp : α → α → Ordering} {a b : List α} {o o' : Ordering} (h : Dictionary cmp a b o)
    (h' : Dictionary cmp a b o') : o = o' := by
  rcases h with ⟨i, hd⟩ | ⟨hs, hl, ho⟩ | ⟨hs, hl, ho⟩ | ⟨hs, hl, ho⟩ <;>
  rcases h' with ⟨i', hd'⟩ | ⟨hs', hl', ho'⟩ | ⟨hs', hl', ho'⟩ | ⟨hs', hl', ho'⟩ <;>
  first
  | exact (diff_unique hd hd').2
  | (subst ho ho'; rfl)
  | (exfalso; omega)
  | (exfalso; have := not_same_of_diff hd hs'; have := diff_lt hd; omega)
  | (exfalso; have := not_same_of_diff hd' hs; have := diff_lt hd'; omega)

/-- Exactly one result is the order by length and content. -/
theorem by_length_unique {cmp : α → α → Ordering} {a b : List α} {o o' : Ordering} (h : ByLength cmp a b o)
    (h' : ByLength cmp a b o') : o = o' := by
  rcases h with ⟨hl, ho⟩ | ⟨hl, ho⟩ | ⟨hl, hc⟩ <;> rcases h' with ⟨hl', ho'⟩ | ⟨hl', ho'⟩ | ⟨hl', hc'⟩ <;>
  first
  | (exfalso; omega)
  | (subst ho ho'; rfl)
  | skip
  rcases hc with ⟨i, hi, hd⟩ | ⟨hs, ho⟩ <;> rcases hc' with ⟨i', hi', hd'⟩ | ⟨hs', ho'⟩
  · exact (diff_unique hd hd').2
  · have := not_same_of_diff hd hs'; omega
  · have := not_same_of_diff hd' hs; omega
  · rw [ho, ho']

/-- The dictionary order of sequences of numbers is Lean's order of lists. -/
theorem dictionary_is_list_lt (a b : List Nat) : Dictionary compare a b .lt ↔ a < b := by
  induction a generalizing b with
  | nil =>
    cases b with
    | nil =>
      constructor
      · rintro (⟨i, hd⟩ | ⟨_, h, _⟩ | ⟨_, h, _⟩ | ⟨_, _, h⟩)
        · have := diff_lt hd; simp at this
        · simp at h
        · simp at h
        · cases h
      · intro h; simp at h
    | cons y b =>
      constructor
      · intro _; exact List.nil_lt_cons _ _
      · intro _; exact Or.inr (Or.inl ⟨same_zero, by simp, rfl⟩)
  | cons x a ih =>
    cases b with
    | nil =>
      constructor
      · rintro (⟨i, hd⟩ | ⟨_, h, _⟩ | ⟨_, _, h⟩ | ⟨_, _, h⟩)
        · have := diff_lt hd; simp at this
        · simp at h
        · cases h
        · cases h
      · intro h; exact absurd h (List.not_lt_nil _)
    | cons y b =>
      rw [List.cons_lt_cons_iff, ← ih]
      constructor
      · intro h
        by_cases hxy : x = y
        · right
          refine ⟨hxy, ?_⟩
          obtain ⟨o, ho⟩ : ∃ o, Dictionary compare a b o := by
            obtain ⟨o, e1, e2⟩ := compareN_spec (cmp := compare) (min a.length b.length) a b (Nat.min_le_left _ _) (Nat.min_le_right _ _)
            rcases e2 with ⟨i, _, hd⟩ | ⟨hs, _⟩
            · exact ⟨o, Or.inl ⟨i, hd⟩⟩
            · rcases Nat.lt_trichotomy a.length b.length with hl | hl | hl
              · rw [Nat.min_eq_left (by omega)] at hs; exact ⟨_, Or.inr (Or.inl ⟨hs, hl, rfl⟩)⟩
              · rw [Nat.min_eq_left (by omega)] at hs; exact ⟨_, Or.inr (Or.inr (Or.inr ⟨hs, hl, rfl⟩))⟩
              · rw [Nat.min_eq_right (by omega)] at hs; exact ⟨_, Or.inr (Or.inr (Or.inl ⟨hs, hl, rfl⟩))⟩
          have := dictionary_unique h (dict_cons (x := x) (y := y) (by rw [hxy]; exact Nat.compare_eq_eq.2 rfl) ho)
          rw [this]; exact ho
        · left
          have hne : compare x y ≠ .eq := fun h => hxy (Nat.compare_eq_eq.1 h)
          have := dictionary_unique h (dict_head hne)
          exact Nat.compare_eq_lt.1 this.symm
      · rintro (h | ⟨rfl, h⟩)
        · have : compare x y = .lt := Nat.compare_eq_lt.2 h
          rw [← this]; exact dict_head (by rw [this]; simp)
        · exact dict_cons (Nat.compare_eq_eq.2 rfl) h

/-! ### C32 -/

/-- **C32 (sized arrays).** `compare(a,b,size)`, `compare(a,size1,b,size2)` and `compare.lexicographical` read only the
arrays and give the documented orders. -/
theorem compare_sized_correct (cmp : α → α → Ordering) (a b : List α) :
    (∀ n, n ≤ a.length → n ≤ b.length → ∃ o, compareN cmp n a b = some o ∧ ByContent cmp a b n o) ∧
    (∃ o, compareSized cmp a a.length b b.length = some o ∧ ByLength cmp a b o) ∧
    (∃ o, lexSized cmp a a.length b b.length = some o ∧ Dictionary cmp a b o) := by
  refine ⟨fun n h1 h2 => compareN_spec n a b h1 h2, ?_, ?_⟩
  · unfold compareSized
    rcases Nat.lt_trichotomy a.length b.length with hl | hl | hl
    · have : compare a.length b.length = .lt := Nat.compare_eq_lt.2 hl
      exact ⟨_, by rw [this, if_pos (by simp)], Or.inl ⟨hl, rfl⟩⟩
    · have : compare a.length b.length = .eq := Nat.compare_eq_eq.2 hl
      obtain ⟨o, e1, e2⟩ := compareN_spec (cmp := cmp) a.length a b (Nat.le_refl _) (by omega)
      exact ⟨o, by rw [this, if_neg (by simp), e1], Or.inr (Or.inr ⟨hl, e2⟩)⟩
    · have : compare a.length b.length = .gt := Nat.compare_eq_gt.2 hl
      exact ⟨_, by rw [this, if_pos (by simp)], Or.inr (Or.inl ⟨hl, rfl⟩)⟩
  · unfold lexSized
    obtain ⟨o, e1, e2⟩ := compareN_spec (cmp := cmp) (min a.length b.length) a b (Nat.min_le_left _ _) (Nat.min_le_right _ _)
    rw [e1]
    dsimp only
    by_cases ho : o = .eq
    · rw [if_neg (by simpa using ho)]
      rcases e2 with ⟨i, _, hd⟩ | ⟨hs, _⟩
      · obtain ⟨_, _, _, _, _, _, h⟩ := hd; exact absurd ho h
      · rcases Nat.lt_trichotomy a.length b.length with hl | hl | hl
        · rw [Nat.min_eq_left (by omega)] at hs
          exact ⟨_, rfl, Or.inr (Or.inl ⟨hs, hl, Nat.compare_eq_lt.2 hl⟩)⟩
        · rw [Nat.min_eq_left (by omega)] at hs
          exact ⟨_, rfl, Or.inr (Or.inr (Or.inr ⟨hs, hl, Nat.compare_eq_eq.2 hl⟩))⟩
        · rw [Nat.min_eq_right (by omega)] at hs
          exact ⟨_, rfl, Or.inr (Or.inr (Or.inl ⟨hs, hl, Nat.compare_eq_gt.2 hl⟩))⟩
    · rw [if_pos ho]
      rcases e2 with ⟨i, _, hd⟩ | ⟨_, h⟩
      · exact ⟨o, rfl, Or.inl ⟨i, hd⟩⟩
      · exact absurd h ho

variable [DecidableEq α]

theorem byLength_of_from {cmp : α → α → Ordering} {a b : List α} {o : Ordering} (h : ByLengthFrom cmp .eq a b o) :
    ByLength cmp a b o := by
  rcases h with h | h | ⟨hl, hc⟩
  · exact Or.inl h
  · exact Or.inr (Or.inl h)
  · rcases hc with ⟨h, _⟩ | ⟨_, h⟩
    · exact absurd rfl h
    · exact Or.inr (Or.inr ⟨hl, h⟩)

/-- **C32 (sized against zero-terminated).** Right in both orders, reading nothing behind either end. -/
theorem compare_sized_zero_correct (cmp : α → α → Ordering) {zero : α} (a : List α) {s mem : List α}
    (ht : Terminated zero s mem) :
    (∃ o, compareSizedZero cmp zero a a.length mem = some o ∧ ByLength cmp a s o) ∧
    (∃ o, lexSizedZero cmp zero a.length a mem = some o ∧ Dictionary cmp a s o) := by
  refine ⟨?_, lexSizedZero_spec _ a s mem rfl ht⟩
  obtain ⟨o, e1, e2⟩ := compareSizedZeroLoop_spec (cmp := cmp) a.length .eq a s mem rfl ht
  exact ⟨o, e1, byLength_of_from e2⟩

/-- **C32 (a part against zero-terminated).** The part is compared with the beginning of the other sequence. -/
theorem compare_part_correct (cmp : α → α → Ordering) {zero : α} (a : List α) {s mem : List α}
    (ht : Terminated zero s mem) :
    (∃ o, comparePart cmp zero a a.length mem = some o ∧ ByLength cmp a (s.take a.length) o) ∧
    (∃ o, lexPart cmp zero a.length a mem = some o ∧ Dictionary cmp a (s.take a.length) o) := by
  refine ⟨?_, lexPart_spec _ a s mem rfl ht⟩
  obtain ⟨o, e1, e2⟩ := comparePartLoop_spec (cmp := cmp) a.length .eq a s mem rfl ht
  exact ⟨o, e1, byLength_of_from e2⟩

example : Terminated 0 [104, 105] [104, 105, 0, 7] := ⟨by decide, [7], rfl⟩

/-- **C32 (both zero-terminated, part).** The order by length is right when the first sequence is not the longer one; the
dictionary order is right when the terminator is below all elements of the first sequence (unsigned characters). -/
theorem compare_zeros_partial (cmp : α → α → Ordering) {zero : α} {sa a sb b : List α} (ha : Terminated zero sa a)
    (hb : Terminated zero sb b) :
    (sa.length ≤ sb.length → ∃ o, compareZeros cmp zero a b = some o ∧ ByLength cmp sa sb o) ∧
    ((∀ x ∈ sa, cmp x zero = .gt) → ∃ o, lexZeros cmp zero a b = some o ∧ Dictionary cmp sa sb o) := by
  refine ⟨fun hle => ?_, fun h => lexZeros_spec sa a sb b ha hb h⟩
  obtain ⟨o, e1, e2⟩ := compareZerosLoop_spec (cmp := cmp) sa a .eq sb b ha hb hle
  exact ⟨o, e1, byLength_of_from e2⟩

/-- **C32 (zero-terminated against sized, characterised).** The order by length is right exactly when the zero-terminated
sequence is the shorter one, the dictionary order exactly when the sized one is not one of its prefixes; otherwise the
element behind the sized array is read. -/
theorem compare_zero_sized_characterised (cmp : α → α → Ordering) {zero : α} {sa a : List α} (ha : Terminated zero sa a)
    (b : List α) :
    (sa.length < b.length → compareZeroSized cmp zero a b b.length = some .lt ∧ ByLength cmp sa b .lt) ∧
    (b.length ≤ sa.length → compareZeroSized cmp zero a b b.length = none) ∧
    (¬ SameTo cmp sa b b.length → ∃ o, lexZeroSized cmp zero b.length a b = some o ∧ Dictionary cmp sa b o) ∧
    (SameTo cmp sa b b.length → lexZeroSized cmp zero b.length a b = none) := by
  refine ⟨fun h => ⟨compareZeroSizedLoop_short sa a _ b _ ha h (Nat.le_refl _), Or.inl ⟨h, rfl⟩⟩,
    fun h => compareZeroSizedLoop_long b sa a _ ha h, fun h => ?_, fun h => ?_⟩
  · rcases lexZeroSized_spec (cmp := cmp) b sa a ha with ⟨o, e1, e2, _⟩ | ⟨_, e2⟩
    · exact ⟨o, e1, e2⟩
    · exact absurd e2 h
  · rcases lexZeroSized_spec (cmp := cmp) b sa a ha with ⟨o, e1, e2, e3⟩ | ⟨e1, _⟩
    · exact absurd h e3
    · exact e1

/-- **C32 is false of the code.**
"ab" (zero-terminated) and "a" (sized, with a zero behind it) compare equal, and lexicographically too;
without the zero the result is `less`, and with nothing behind the array it is undefined.
Two zero-terminated strings: "bb" against "a" reads behind the terminator of "a", and gives `less` when a "b" was there.
With signed characters "\x80" is below the empty string. -/
theorem compare_refuted :
    (compareZeroSized compare 0 [97, 98, 0] [97, 0] 1 = some .eq ∧ lexZeroSized compare 0 1 [97, 98, 0] [97, 0] = some .eq) ∧
    compareZeroSized compare 0 [97, 0] [97, 98] 1 = some .lt ∧
    compareZeroSized compare 0 [97, 0] [97] 1 = none ∧ lexZeroSized compare 0 1 [97, 0] [97] = none ∧
    compareZeros compare 0 [98, 98, 0] [97, 0] = none ∧
    compareZeros compare 0 [98, 98, 0] [97, 0, 98] = some .lt ∧
    lexZeros (compare : Int → Int → Ordering) 0 [-128, 0] [0] = some .lt := by
  decide

/-! ### C58: equality -/

/-- **C58.** Every form of `equal` says whether the sequences are equal (for a part: whether it is a prefix), reading
nothing behind either end. -/
theorem equal_correct {zero : α} {sa a sb b : List α} (ha : Terminated zero sa a) (hb : Terminated zero sb b)
    (x y : List α) :
    (∀ n, n ≤ x.length → n ≤ y.length → equalN n x y = some (decide (x.take n = y.take n))) ∧
    equalSized x x.length y y.length = some (decide (x = y)) ∧
    equalZero zero x.length x b = some (decide (x = sb)) ∧
    equalZeroSized zero a y y.length = some (decide (sa = y)) ∧
    equalZeros zero a b = some (decide (sa = sb)) ∧
    equalPart zero x.length x b = some (decide (x <+: sb)) := by
  refine ⟨fun n h1 h2 => equalN_spec n x y h1 h2, ?_, equalZero_spec _ x sb b rfl hb, ?_, equalZeros_spec sa a sb b ha hb,
    equalPart_spec _ x sb b rfl hb⟩
  · unfold equalSized
    by_cases h : x.length = y.length
    · rw [if_pos h, equalN_spec _ x y (Nat.le_refl _) (by omega), List.take_length, h, List.take_length]
    · rw [if_neg h]
      have : x ≠ y := fun e => h (by rw [e])
      simp [this]
  · unfold equalZeroSized
    rw [equalZero_spec _ y sa a rfl ha]
    simp [eq_comm]

example : Terminated 0 [104, 105] [104, 105, 0] ∧ Terminated 0 ([] : List Nat) [0, 3] :=
  ⟨⟨by decide, [], rfl⟩, ⟨by decide, [3], rfl⟩⟩

/-- **C58 (order reversal).** `compare.reverse` exchanges `less` and `greater` and nothing else. -/
theorem reverse_correct : reverse (some .lt) = some .gt ∧ reverse (some .gt) = some .lt ∧ reverse (some .eq) = some .eq ∧
    reverse none = none := ⟨rfl, rfl, rfl, rfl⟩

/-! ### C59: `max` and `min` -/

/-- `l[i]` is a greatest element of `l` by `key`. -/
def Spec.GreatestAt (key : α → Int) (l : List α) (i : Nat) (x : α) : Prop := l[i]? = some x ∧ ∀ y ∈ l, key y ≤ key x
/-- `l[i]` is a least element of `l` by `key`. -/
def Spec.LeastAt (key : α → Int) (l : List α) (i : Nat) (x : α) : Prop := l[i]? = some x ∧ ∀ y ∈ l, key x ≤ key y

/-- The comparison of objects by a key. -/
def byKey (key : α → Int) (a b : α) : Ordering := compare (key a) (key b)

omit [DecidableEq α] in
theorem byKey_lt {key : α → Int} {a b : α} : byKey key a b = .lt ↔ key a < key b := by
  unfold byKey; rw [Int.compare_eq_lt]

omit [DecidableEq α] in
theorem byKey_gt {key : α → Int} {a b : α} : byKey key a b = .gt ↔ key b < key a := by
  unfold byKey; rw [Int.compare_eq_gt]

omit [DecidableEq α] in
/-- **C59 (`max` of arguments).** The first greatest argument is returned. -/
theorem max_correct (key : α → Int) (a : α) (l : List α) :
    ∃ i, GreatestAt key (a :: l) i (maxOf (byKey key) a l) ∧
      ∀ j < i, ∀ y, (a :: l)[j]? = some y → key y < key (maxOf (byKey key) a l) := by
  induction l generalizing a with
  | nil => exact ⟨0, ⟨rfl, by simp [maxOf]⟩, by intro j hj; omega⟩
  | cons b l ih =>
    obtain ⟨i, ⟨h1, h2⟩, h3⟩ := ih b
    rw [maxOf, max2]
    by_cases h : byKey key a (maxOf (byKey key) b l) = .lt
    · rw [if_pos h]
      rw [byKey_lt] at h
      refine ⟨i + 1, ⟨h1, ?_⟩, ?_⟩
      · intro y hy
        rcases List.mem_cons.1 hy with rfl | hy
        · omega
        · exact h2 y hy
      · intro j hj y hy
        cases j with
        | zero => simp at hy; subst hy; exact h
        | succ j => exact h3 j (by omega) y hy
    · rw [if_neg h]
      rw [byKey_lt] at h
      refine ⟨0, ⟨rfl, ?_⟩, by intro j hj; omega⟩
      intro y hy
      rcases List.mem_cons.1 hy with rfl | hy
      · exact Int.le_refl _
      · have := h2 y hy; omega

omit [DecidableEq α] in
/-- **C59 (`min` of arguments).** The last least argument is returned. -/
theorem min_correct (key : α → Int) (a : α) (l : List α) :
    ∃ i, LeastAt key (a :: l) i (minOf (byKey key) a l) ∧
      ∀ j > i, ∀ y, (a :: l)[j]? = some y → key (minOf (byKey key) a l) < key y := by
  induction l generalizing a with
  | nil =>
    refine ⟨0, ⟨rfl, by simp [minOf]⟩, ?_⟩
    intro j hj y hy
    cases j with
    | zero => omega
    | succ j => simp at hy
  | cons b l ih =>
    obtain ⟨i, ⟨h1, h2⟩, h3⟩ := ih b
    rw [minOf, min2]
    by_cases h : byKey key a (minOf (byKey key) b l) = .lt
    · rw [if_pos h]
      rw [byKey_lt] at h
      refine ⟨0, ⟨rfl, ?_⟩, ?_⟩
      · intro y hy
        rcases List.mem_cons.1 hy with rfl | hy
        · exact Int.le_refl _
        · have := h2 y hy; omega
      · intro j hj y hy
        cases j with
        | zero => omega
        | succ j =>
          have := h2 y (List.mem_of_getElem? (by simpa using hy)); omega
    · rw [if_neg h]
      rw [byKey_lt] at h
      refine ⟨i + 1, ⟨h1, ?_⟩, ?_⟩
      · intro y hy
        rcases List.mem_cons.1 hy with rfl | hy
        · omega
        · exact h2 y hy
      · intro j hj y hy
        cases j with
        | zero => omega
        | succ j => exact h3 j (by omega) y hy

omit [DecidableEq α] in
theorem maxList_spec (key : α → Int) : ∀ (l : List α) (m : α), ∃ i, GreatestAt key (m :: l) i (maxList (byKey key) m l) ∧
      ∀ j < i, ∀ y, (m :: l)[j]? = some y → key y < key (maxList (byKey key) m l) := by
  intro l
  induction l with
  | nil => intro m; exact ⟨0, ⟨rfl, by simp [maxList]⟩, by intro j hj; omega⟩
  | cons b l ih =>
    intro m
    rw [maxList]
    by_cases h : byKey key m b = .lt
    · rw [if_pos h]
      rw [byKey_lt] at h
      obtain ⟨i, ⟨h1, h2⟩, h3⟩ := ih b
      refine ⟨i + 1, ⟨h1, ?_⟩, ?_⟩
      · intro y hy
        have := h2 b (by simp)
        rcases List.mem_cons.1 hy with rfl | hy
        · omega
        · exact h2 y hy
      · intro j hj y hy
        have := h2 b (by simp)
        cases j with
        | zero => simp at hy; subst hy; omega
        | succ j => exact h3 j (by omega) y hy
    · rw [if_neg h]
      rw [byKey_lt] at h
      obtain ⟨i, ⟨h1, h2⟩, h3⟩ := ih m
      have hm := h2 m (by simp)
      have hall : ∀ y ∈ m :: b :: l, key y ≤ key (maxList (byKey key) m l) := by
        intro y hy
        rcases List.mem_cons.1 hy with rfl | hy
        · exact hm
        · rcases List.mem_cons.1 hy with rfl | hy
          · omega
          · exact h2 y (by simp [hy])
      cases i with
      | zero => exact ⟨0, ⟨h1, hall⟩, by intro j hj; omega⟩
      | succ i =>
        refine ⟨i + 2, ⟨h1, hall⟩, ?_⟩
        have h0 := h3 0 (by omega) m rfl
        intro j hj y hy
        rcases j with _ | _ | j
        · simp at hy; subst hy; exact h0
        · simp at hy; subst hy; omega
        · exact h3 (j + 1) (by omega) y hy

omit [DecidableEq α] in
theorem minList_spec (key : α → Int) : ∀ (l : List α) (m : α), ∃ i, LeastAt key (m :: l) i (minList (byKey key) m l) ∧
      ∀ j < i, ∀ y, (m :: l)[j]? = some y → key (minList (byKey key) m l) < key y := by
  intro l
  induction l with
  | nil => intro m; exact ⟨0, ⟨rfl, by simp [minList]⟩, by intro j hj; omega⟩
  | cons b l ih =>
    intro m
    rw [minList]
    by_cases h : byKey key m b = .gt
    · rw [if_pos h]
      rw [byKey_gt] at h
      obtain ⟨i, ⟨h1, h2⟩, h3⟩ := ih b
      refine ⟨i + 1, ⟨h1, ?_⟩, ?_⟩
      · intro y hy
        have := h2 b (by simp)
        rcases List.mem_cons.1 hy with rfl | hy
        · omega
        · exact h2 y hy
      · intro j hj y hy
        have := h2 b (by simp)
        cases j with
        | zero => simp at hy; subst hy; omega
        | succ j => exact h3 j (by omega) y hy
    · rw [if_neg h]
      rw [byKey_gt] at h
      obtain ⟨i, ⟨h1, h2⟩, h3⟩ := ih m
      have hm := h2 m (by simp)
      have hall : ∀ y ∈ m :: b :: l, key (minList (byKey key) m l) ≤ key y := by
        intro y hy
        rcases List.mem_cons.1 hy with rfl | hy
        · exact hm
        · rcases List.mem_cons.1 hy with rfl | hy
          · omega
          · exact h2 y (by simp [hy])
      cases i with
      | zero => exact ⟨0, ⟨h1, hall⟩, by intro j hj; omega⟩
      | succ i =>
        refine ⟨i + 2, ⟨h1, hall⟩, ?_⟩
        have h0 := h3 0 (by omega) m rfl
        intro j hj y hy
        rcases j with _ | _ | j
        · simp at hy; subst hy; exact h0
        · simp at hy; subst hy; omega
        · exact h3 (j + 1) (by omega) y hy

omit [DecidableEq α] in
/-- **C59 (`max({...})` and `min({...})`).** The loop starts at the first element and visits it again; the first greatest
(least) element is returned. -/
theorem max_min_list_correct (key : α → Int) (a : α) (l : List α) :
    (∃ i, GreatestAt key (a :: l) i (maxList (byKey key) a (a :: l)) ∧
      ∀ j < i, ∀ y, (a :: l)[j]? = some y → key y < key (maxList (byKey key) a (a :: l))) ∧
    (∃ i, LeastAt key (a :: l) i (minList (byKey key) a (a :: l)) ∧
      ∀ j < i, ∀ y, (a :: l)[j]? = some y → key (minList (byKey key) a (a :: l)) < key y) := by
  have e1 : maxList (byKey key) a (a :: l) = maxList (byKey key) a l := by
    rw [maxList]; split <;> rfl
  have e2 : minList (byKey key) a (a :: l) = minList (byKey key) a l := by
    rw [minList]; split <;> rfl
  rw [e1, e2]
  exact ⟨maxList_spec key l a, minList_spec key l a⟩

example : maxOf (byKey (fun p : Int × Nat => p.1)) (1, 0) [(5, 1), (2, 2), (5, 3)] = (5, 1) ∧
    minOf (byKey (fun p : Int × Nat => p.1)) (1, 0) [(5, 1), (1, 2)] = (1, 2) := by decide

end ELC.Compare
