import Verif.Compare.Model
import Verif.Compare.Spec
namespace ELC.Compare
open Spec
variable {α : Type} {cmp : α → α → Ordering}

theorem same_zero {a b : List α} : SameTo cmp a b 0 := by intro j hj; omega

theorem same_cons {a b : List α} {x y : α} {n : Nat} (h : cmp x y = .eq) (hs : SameTo cmp a b n) :
    SameTo cmp (x :: a) (y :: b) (n + 1) := by
  intro j hj
  cases j with
  | zero => exact ⟨x, y, rfl, rfl, h⟩
  | succ j => exact hs j (by omega)

theorem diff_cons {a b : List α} {x y : α} {i : Nat} {o : Ordering} (h : cmp x y = .eq) (hd : DiffAt cmp a b i o) :
    DiffAt cmp (x :: a) (y :: b) (i + 1) o := ⟨same_cons h hd.1, hd.2⟩

theorem diff_head {a b : List α} {x y : α} (h : cmp x y ≠ .eq) : DiffAt cmp (x :: a) (y :: b) 0 (cmp x y) :=
  ⟨same_zero, x, y, rfl, rfl, rfl, h⟩

theorem content_cons {a b : List α} {x y : α} {n : Nat} {o : Ordering} (h : cmp x y = .eq) (hc : ByContent cmp a b n o) :
    ByContent cmp (x :: a) (y :: b) (n + 1) o := by
  rcases hc with ⟨i, hi, hd⟩ | ⟨hs, ho⟩
  · exact Or.inl ⟨i + 1, by omega, diff_cons h hd⟩
  · exact Or.inr ⟨same_cons h hs, ho⟩

theorem content_head {a b : List α} {x y : α} {n : Nat} (h : cmp x y ≠ .eq) :
    ByContent cmp (x :: a) (y :: b) (n + 1) (cmp x y) := Or.inl ⟨0, by omega, diff_head h⟩

theorem dict_cons {a b : List α} {x y : α} {o : Ordering} (h : cmp x y = .eq) (hc : Dictionary cmp a b o) :
    Dictionary cmp (x :: a) (y :: b) o := by
  rcases hc with ⟨i, hd⟩ | ⟨hs, hl, ho⟩ | ⟨hs, hl, ho⟩ | ⟨hs, hl, ho⟩
  · exact Or.inl ⟨i + 1, diff_cons h hd⟩
  · exact Or.inr (Or.inl ⟨same_cons h hs, by simpa using hl, ho⟩)
  · exact Or.inr (Or.inr (Or.inl ⟨same_cons h hs, by simpa using hl, ho⟩))
  · exact Or.inr (Or.inr (Or.inr ⟨same_cons h hs, by simpa using hl, ho⟩))

theorem dict_head {a b : List α} {x y : α} (h : cmp x y ≠ .eq) :
    Dictionary cmp (x :: a) (y :: b) (cmp x y) := Or.inl ⟨0, diff_head h⟩

theorem compareN_spec : ∀ (n : Nat) (a b : List α), n ≤ a.length → n ≤ b.length →
    ∃ o, compareN cmp n a b = some o ∧ ByContent cmp a b n o := by
  intro n
  induction n with
  | zero => intro a b _ _; exact ⟨.eq, by simp [compareN], Or.inr ⟨same_zero, rfl⟩⟩
  | succ n ih =>
    intro a b ha hb
    cases a with
    | nil => simp at ha
    | cons x a =>
      cases b with
      | nil => simp at hb
      | cons y b =>
        rw [compareN]
        by_cases h : cmp x y = .eq
        · obtain ⟨o, e1, e2⟩ := ih a b (by simpa using ha) (by simpa using hb)
          exact ⟨o, by rw [if_neg (by simpa using h), e1], content_cons h e2⟩
        · exact ⟨_, by rw [if_pos h], content_head h⟩

theorem term_cases {zero : α} {s mem : List α} (h : Terminated zero s mem) :
    (s = [] ∧ ∃ rest, mem = zero :: rest) ∨ (∃ y s' mem', s = y :: s' ∧ mem = y :: mem' ∧ y ≠ zero ∧ Terminated zero s' mem') := by
  obtain ⟨h1, rest, rfl⟩ := h
  cases s with
  | nil => exact Or.inl ⟨rfl, rest, rfl⟩
  | cons y s =>
    simp only [List.mem_cons, not_or] at h1
    exact Or.inr ⟨y, s, s ++ zero :: rest, rfl, rfl, fun h => h1.1 h.symm, h1.2, rest, rfl⟩

variable [DecidableEq α]

/-- The order by length, with `tmp` the outcome of the elements before. -/
def ByLengthFrom (cmp : α → α → Ordering) (tmp : Ordering) (a b : List α) (o : Ordering) : Prop :=
  (a.length < b.length ∧ o = .lt) ∨ (b.length < a.length ∧ o = .gt) ∨
    (a.length = b.length ∧ (tmp ≠ .eq ∧ o = tmp ∨ tmp = .eq ∧ ByContent cmp a b a.length o))

omit [DecidableEq α] in
theorem byLengthFrom_cons {tmp : Ordering} {a b : List α} {x y : α} {o : Ordering}
    (h : ByLengthFrom cmp (if tmp = .eq then cmp x y else tmp) a b o) :
    ByLengthFrom cmp tmp (x :: a) (y :: b) o := by
  rcases h with ⟨hl, ho⟩ | ⟨hl, ho⟩ | ⟨hl, hc⟩
  · exact Or.inl ⟨by simpa using hl, ho⟩
  · exact Or.inr (Or.inl ⟨by simpa using hl, ho⟩)
  · refine Or.inr (Or.inr ⟨by simpa using hl, ?_⟩)
    by_cases ht : tmp = .eq
    · rw [if_pos ht] at hc
      right
      refine ⟨ht, ?_⟩
      rcases hc with ⟨h1, rfl⟩ | ⟨h1, h2⟩
      · exact content_head h1
      · exact content_cons h1 h2
    · rw [if_neg ht] at hc
      left
      rcases hc with ⟨_, rfl⟩ | ⟨h1, _⟩
      · exact ⟨ht, rfl⟩
      · exact absurd h1 ht

theorem compareSizedZeroLoop_spec {zero : α} : ∀ (n : Nat) (tmp : Ordering) (a s mem : List α), a.length = n →
    Terminated zero s mem → ∃ o, compareSizedZeroLoop cmp zero n tmp a mem = some o ∧ ByLengthFrom cmp tmp a s o := by
  intro n
  induction n with
  | zero =>
    intro tmp a s mem ha ht
    have : a = [] := List.length_eq_zero_iff.1 ha
    subst this
    rcases term_cases ht with ⟨rfl, rest, rfl⟩ | ⟨y, s', mem', rfl, rfl, hy, _⟩
    · refine ⟨tmp, by simp [compareSizedZeroLoop], Or.inr (Or.inr ⟨rfl, ?_⟩)⟩
      by_cases h : tmp = .eq
      · exact Or.inr ⟨h, Or.inr ⟨same_zero, h⟩⟩
      · exact Or.inl ⟨h, rfl⟩
    · exact ⟨.lt, by simp [compareSizedZeroLoop, hy], Or.inl ⟨by simp, rfl⟩⟩
  | succ n ih =>
    intro tmp a s mem ha ht
    cases a with
    | nil => simp at ha
    | cons x a =>
      rcases term_cases ht with ⟨rfl, rest, rfl⟩ | ⟨y, s', mem', rfl, rfl, hy, ht'⟩
      · exact ⟨.gt, by simp [compareSizedZeroLoop], Or.inr (Or.inl ⟨by simp, rfl⟩)⟩
      · obtain ⟨o, e1, e2⟩ := ih (if tmp = .eq then cmp x y else tmp) a s' mem' (by simpa using ha) ht'
        refine ⟨o, ?_, byLengthFrom_cons e2⟩
        rw [compareSizedZeroLoop, if_neg hy]
        by_cases h : tmp = .eq
        · rw [if_pos h] at e1 ⊢; exact e1
        · rw [if_neg h] at e1 ⊢; exact e1

theorem compareZerosLoop_spec {zero : α} : ∀ (sa a : List α) (tmp : Ordering) (sb b : List α),
    Terminated zero sa a → Terminated zero sb b → sa.length ≤ sb.length →
    ∃ o, compareZerosLoop cmp zero tmp a b = some o ∧ ByLengthFrom cmp tmp sa sb o := by
  intro sa
  induction sa with
  | nil =>
    intro a tmp sb b ha hb hle
    obtain ⟨_, rest, rfl⟩ := ha
    rcases term_cases hb with ⟨rfl, rest', rfl⟩ | ⟨y, s', mem', rfl, rfl, hy, _⟩
    · refine ⟨tmp, by simp [compareZerosLoop], Or.inr (Or.inr ⟨rfl, ?_⟩)⟩
      by_cases h : tmp = .eq
      · exact Or.inr ⟨h, Or.inr ⟨same_zero, h⟩⟩
      · exact Or.inl ⟨h, rfl⟩
    · exact ⟨.lt, by simp [compareZerosLoop, hy], Or.inl ⟨by simp, rfl⟩⟩
  | cons x sa ih =>
    intro a tmp sb b ha hb hle
    rcases term_cases ha with ⟨h, _⟩ | ⟨x', sa', a', hcons, rfl, hx, ha'⟩
    · cases h
    · cases hcons
      rcases term_cases hb with ⟨rfl, rest, rfl⟩ | ⟨y, sb', b', rfl, rfl, hy, hb'⟩
      · simp at hle
      · obtain ⟨o, e1, e2⟩ := ih a' (if tmp = .eq then cmp x y else tmp) sb' b' ha' hb' (by simpa using hle)
        refine ⟨o, ?_, byLengthFrom_cons e2⟩
        rw [compareZerosLoop, if_neg hx]
        by_cases h : tmp = .eq
        · rw [if_pos h] at e1 ⊢; exact e1
        · rw [if_neg h] at e1 ⊢; exact e1

theorem compareZeroSizedLoop_short {zero : α} : ∀ (sa a : List α) (tmp : Ordering) (b : List α) (n : Nat),
    Terminated zero sa a → sa.length < n → n ≤ b.length → compareZeroSizedLoop cmp zero n tmp a b = some .lt := by
  intro sa
  induction sa with
  | nil =>
    intro a tmp b n ha hn _
    obtain ⟨_, rest, rfl⟩ := ha
    cases n with
    | zero => simp at hn
    | succ n => simp [compareZeroSizedLoop]
  | cons x sa ih =>
    intro a tmp b n ha hn hb
    rcases term_cases ha with ⟨h, _⟩ | ⟨x', sa', a', hcons, rfl, hx, ha'⟩
    · cases h
    · cases hcons
      cases n with
      | zero => simp at hn
      | succ n =>
        cases b with
        | nil => simp at hb
        | cons y b =>
          rw [compareZeroSizedLoop, if_neg hx]
          simp only [List.length_cons] at hn hb
          by_cases h : tmp = .eq
          · rw [if_pos h]; exact ih _ _ _ _ ha' (by omega) (by omega)
          · rw [if_neg h]; exact ih _ _ _ _ ha' (by omega) (by simpa using hb)

theorem compareZeroSizedLoop_long {zero : α} : ∀ (b : List α) (sa a : List α) (tmp : Ordering),
    Terminated zero sa a → b.length ≤ sa.length → compareZeroSizedLoop cmp zero b.length tmp a b = none := by
  intro b
  induction b with
  | nil => intro sa a tmp ha _; simp [compareZeroSizedLoop]
  | cons y b ih =>
    intro sa a tmp ha hle
    rcases term_cases ha with ⟨rfl, _⟩ | ⟨x', sa', a', rfl, rfl, hx, ha'⟩
    · simp at hle
    · rw [List.length_cons, compareZeroSizedLoop, if_neg hx]
      have := fun t => ih sa' a' t ha' (by simpa using hle)
      by_cases h : tmp = .eq
      · rw [if_pos h]; exact this _
      · rw [if_neg h]; exact this _

theorem comparePartLoop_spec {zero : α} : ∀ (n : Nat) (tmp : Ordering) (a s mem : List α), a.length = n →
    Terminated zero s mem → ∃ o, comparePartLoop cmp zero n tmp a mem = some o ∧
      ByLengthFrom cmp tmp a (s.take n) o := by
  intro n
  induction n with
  | zero =>
    intro tmp a s mem ha ht
    have : a = [] := List.length_eq_zero_iff.1 ha
    subst this
    refine ⟨tmp, by simp [comparePartLoop], Or.inr (Or.inr ⟨by simp, ?_⟩)⟩
    by_cases h : tmp = .eq
    · exact Or.inr ⟨h, Or.inr ⟨same_zero, h⟩⟩
    · exact Or.inl ⟨h, rfl⟩
  | succ n ih =>
    intro tmp a s mem ha ht
    cases a with
    | nil => simp at ha
    | cons x a =>
      rcases term_cases ht with ⟨rfl, rest, rfl⟩ | ⟨y, s', mem', rfl, rfl, hy, ht'⟩
      · exact ⟨.gt, by simp [comparePartLoop], Or.inr (Or.inl ⟨by simp, rfl⟩)⟩
      · obtain ⟨o, e1, e2⟩ := ih (if tmp = .eq then cmp x y else tmp) a s' mem' (by simpa using ha) ht'
        refine ⟨o, ?_, ?_⟩
        · rw [comparePartLoop, if_neg hy]
          by_cases h : tmp = .eq
          · rw [if_pos h] at e1 ⊢; exact e1
          · rw [if_neg h] at e1 ⊢; exact e1
        · rw [List.take_succ_cons]; exact byLengthFrom_cons e2

theorem lexSizedZero_spec {zero : α} : ∀ (n : Nat) (a s mem : List α), a.length = n →
    Terminated zero s mem → ∃ o, lexSizedZero cmp zero n a mem = some o ∧ Dictionary cmp a s o := by
  intro n
  induction n with
  | zero =>
    intro a s mem ha ht
    have : a = [] := List.length_eq_zero_iff.1 ha
    subst this
    rcases term_cases ht with ⟨rfl, rest, rfl⟩ | ⟨y, s', mem', rfl, rfl, hy, _⟩
    · exact ⟨.eq, by simp [lexSizedZero], Or.inr (Or.inr (Or.inr ⟨same_zero, rfl, rfl⟩))⟩
    · exact ⟨.lt, by simp [lexSizedZero, hy], Or.inr (Or.inl ⟨same_zero, by simp, rfl⟩)⟩
  | succ n ih =>
    intro a s mem ha ht
    cases a with
    | nil => simp at ha
    | cons x a =>
      rcases term_cases ht with ⟨rfl, rest, rfl⟩ | ⟨y, s', mem', rfl, rfl, hy, ht'⟩
      · exact ⟨.gt, by simp [lexSizedZero], Or.inr (Or.inr (Or.inl ⟨same_zero, by simp, rfl⟩))⟩
      · rw [lexSizedZero, if_neg hy]
        by_cases h : cmp x y = .eq
        · obtain ⟨o, e1, e2⟩ := ih a s' mem' (by simpa using ha) ht'
          exact ⟨o, by rw [if_neg (by simpa using h), e1], dict_cons h e2⟩
        · exact ⟨_, by rw [if_pos h], dict_head h⟩

theorem lexZeros_spec {zero : α} : ∀ (sa a sb b : List α), Terminated zero sa a → Terminated zero sb b →
    (∀ x ∈ sa, cmp x zero = .gt) →
    ∃ o, lexZeros cmp zero a b = some o ∧ Dictionary cmp sa sb o := by
  intro sa
  induction sa with
  | nil =>
    intro a sb b ha hb _
    obtain ⟨_, rest, rfl⟩ := ha
    rcases term_cases hb with ⟨rfl, rest', rfl⟩ | ⟨y, s', mem', rfl, rfl, hy, _⟩
    · exact ⟨.eq, by simp [lexZeros], Or.inr (Or.inr (Or.inr ⟨same_zero, rfl, rfl⟩))⟩
    · exact ⟨.lt, by simp [lexZeros, hy], Or.inr (Or.inl ⟨same_zero, by simp, rfl⟩)⟩
  | cons x sa ih =>
    intro a sb b ha hb hz
    rcases term_cases ha with ⟨h, _⟩ | ⟨x', sa', a', hcons, rfl, hx, ha'⟩
    · cases h
    · cases hcons
      rcases term_cases hb with ⟨rfl, rest, rfl⟩ | ⟨y, sb', b', rfl, rfl, hy, hb'⟩
      · refine ⟨.gt, ?_, Or.inr (Or.inr (Or.inl ⟨same_zero, by simp, rfl⟩))⟩
        rw [lexZeros, if_neg hx, hz x (by simp)]; rfl
      · rw [lexZeros, if_neg hx]
        by_cases h : cmp x y = .eq
        · obtain ⟨o, e1, e2⟩ := ih a' sb' b' ha' hb' (fun z hz' => hz z (by simp [hz']))
          exact ⟨o, by rw [if_neg (by simpa using h), e1], dict_cons h e2⟩
        · exact ⟨_, by rw [if_pos h], dict_head h⟩

theorem lexZeroSized_spec {zero : α} : ∀ (b sa a : List α), Terminated zero sa a →
    (∃ o, lexZeroSized cmp zero b.length a b = some o ∧ Dictionary cmp sa b o ∧ ¬ SameTo cmp sa b b.length) ∨
    (lexZeroSized cmp zero b.length a b = none ∧ SameTo cmp sa b b.length) := by
  intro b
  induction b with
  | nil => intro sa a ha; right; exact ⟨by simp [lexZeroSized], same_zero⟩
  | cons y b ih =>
    intro sa a ha
    rcases term_cases ha with ⟨rfl, rest, rfl⟩ | ⟨x, sa', a', rfl, rfl, hx, ha'⟩
    · left
      refine ⟨.lt, by simp [lexZeroSized], Or.inr (Or.inl ⟨same_zero, by simp, rfl⟩), ?_⟩
      intro h
      obtain ⟨x, _, h1, _⟩ := h 0 (by simp)
      simp at h1
    · rw [List.length_cons, lexZeroSized, if_neg hx]
      by_cases h : cmp x y = .eq
      · rw [if_neg (by simpa using h)]
        rcases ih sa' a' ha' with ⟨o, e1, e2, e3⟩ | ⟨e1, e2⟩
        · left
          refine ⟨o, e1, dict_cons h e2, ?_⟩
          intro hs
          exact e3 fun j hj => hs (j + 1) (by omega)
        · right; exact ⟨e1, same_cons h e2⟩
      · left
        refine ⟨_, by rw [if_pos h], dict_head h, ?_⟩
        intro hs
        obtain ⟨x', y', h1, h2, h3⟩ := hs 0 (by omega)
        simp at h1 h2
        subst h1 h2
        exact h h3

theorem lexPart_spec {zero : α} : ∀ (n : Nat) (a s mem : List α), a.length = n →
    Terminated zero s mem → ∃ o, lexPart cmp zero n a mem = some o ∧ Dictionary cmp a (s.take n) o := by
  intro n
  induction n with
  | zero =>
    intro a s mem ha ht
    have : a = [] := List.length_eq_zero_iff.1 ha
    subst this
    exact ⟨.eq, by simp [lexPart], Or.inr (Or.inr (Or.inr ⟨same_zero, by simp, rfl⟩))⟩
  | succ n ih =>
    intro a s mem ha ht
    cases a with
    | nil => simp at ha
    | cons x a =>
      rcases term_cases ht with ⟨rfl, rest, rfl⟩ | ⟨y, s', mem', rfl, rfl, hy, ht'⟩
      · exact ⟨.gt, by simp [lexPart], Or.inr (Or.inr (Or.inl ⟨same_zero, by simp, rfl⟩))⟩
      · rw [lexPart, if_neg hy, List.take_succ_cons]
        by_cases h : cmp x y = .eq
        · obtain ⟨o, e1, e2⟩ := ih a s' mem' (by simpa using ha) ht'
          exact ⟨o, by rw [if_neg (by simpa using h), e1], dict_cons h e2⟩
        · exact ⟨_, by rw [if_pos h], dict_head h⟩

/-! ### equality -/

theorem equalN_spec : ∀ (n : Nat) (a b : List α), n ≤ a.length → n ≤ b.length →
    equalN n a b = some (decide (a.take n = b.take n)) := by
  intro n
  induction n with
  | zero => intro a b _ _; simp [equalN]
  | succ n ih =>
    intro a b ha hb
    cases a with
    | nil => simp at ha
    | cons x a =>
      cases b with
      | nil => simp at hb
      | cons y b =>
        rw [equalN, ih a b (by simpa using ha) (by simpa using hb)]
        by_cases h : x = y <;> simp [h]

theorem equalZero_spec {zero : α} : ∀ (n : Nat) (a s mem : List α), a.length = n → Terminated zero s mem →
    equalZero zero n a mem = some (decide (a = s)) := by
  intro n
  induction n with
  | zero =>
    intro a s mem ha ht
    have : a = [] := List.length_eq_zero_iff.1 ha
    subst this
    rcases term_cases ht with ⟨rfl, rest, rfl⟩ | ⟨y, s', mem', rfl, rfl, hy, _⟩ <;> simp [equalZero, *]
  | succ n ih =>
    intro a s mem ha ht
    cases a with
    | nil => simp at ha
    | cons x a =>
      rcases term_cases ht with ⟨rfl, rest, rfl⟩ | ⟨y, s', mem', rfl, rfl, hy, ht'⟩
      · simp [equalZero]
      · rw [equalZero, ih a s' mem' (by simpa using ha) ht']
        by_cases h : x = y <;> simp [h, hy]

theorem equalPart_spec {zero : α} : ∀ (n : Nat) (a s mem : List α), a.length = n → Terminated zero s mem →
    equalPart zero n a mem = some (decide (a <+: s)) := by
  intro n
  induction n with
  | zero =>
    intro a s mem ha ht
    have : a = [] := List.length_eq_zero_iff.1 ha
    subst this
    simp [equalPart]
  | succ n ih =>
    intro a s mem ha ht
    cases a with
    | nil => simp at ha
    | cons x a =>
      rcases term_cases ht with ⟨rfl, rest, rfl⟩ | ⟨y, s', mem', rfl, rfl, hy, ht'⟩
      · simp [equalPart]
      · rw [equalPart, ih a s' mem' (by simpa using ha) ht']
        by_cases h : x = y <;> simp [h, hy, List.cons_prefix_cons]

theorem equalZeros_spec {zero : α} : ∀ (sa a sb b : List α), Terminated zero sa a → Terminated zero sb b →
    equalZeros zero a b = some (decide (sa = sb)) := by
  intro sa
  induction sa with
  | nil =>
    intro a sb b ha hb
    obtain ⟨_, rest, rfl⟩ := ha
    rcases term_cases hb with ⟨rfl, rest', rfl⟩ | ⟨y, s', mem', rfl, rfl, hy, _⟩
    · simp [equalZeros]
    · simp [equalZeros, Ne.symm hy]
  | cons x sa ih =>
    intro a sb b ha hb
    rcases term_cases ha with ⟨h, _⟩ | ⟨x', sa', a', hcons, rfl, hx, ha'⟩
    · cases h
    · cases hcons
      rcases term_cases hb with ⟨rfl, rest, rfl⟩ | ⟨y, sb', b', rfl, rfl, hy, hb'⟩
      · simp [equalZeros, hx]
      · rw [equalZeros, ih a' sb' b' ha' hb']
        by_cases h : x = y
        · subst h; simp [hx]
        · simp [h]

end ELC.Compare
