import Verif.Pushback.Spec
import Mathlib.Tactic.ByContra
import Mathlib.Tactic.SplitIfs
/-! Input streams that take data back: C50. -/
namespace ELC.Pushback

open Spec

variable {A : Type}

/-- The state of a stream that holds back `v.back`. -/
structure Rel (s : Stream A) (v : View A) : Prop where
  length : s.buffer.length = 1024
  using_ : s.using_ = 1024
  pos : s.pos ≤ 1024
  back : s.buffer.drop s.pos = v.back
  source : s.source = v.source

theorem rel_len {s : Stream A} {v : View A} (r : Rel s v) : v.back.length + s.pos = 1024 := by
  have := congrArg List.length r.back
  rw [List.length_drop, r.length] at this
  have := r.pos
  omega

theorem rel_start (d : A) (source : List A) : Rel (start d source) ⟨[], source⟩ := by
  refine ⟨by rw [start, List.length_replicate, defaultSize], rfl, Nat.le_refl _, ?_, rfl⟩
  apply List.drop_eq_nil_of_le
  rw [start, List.length_replicate]; exact Nat.le_refl _

theorem read_rel {s : Stream A} {v : View A} (r : Rel s v) (size k : Nat) :
    ∃ s', read s size k = some ((Spec.read v size k).1, s') ∧ Rel s' (Spec.read v size k).2 := by
  have hl := rel_len r
  have h1 := r.length
  have h2 := r.using_
  unfold read
  by_cases h0 : size = 0
  · subst h0
    rw [if_pos rfl]
    exact ⟨s, by simp [Spec.read], by simpa [Spec.read] using r⟩
  rw [if_neg h0]
  by_cases hp : s.pos ≠ s.using_
  · rw [if_pos hp, h2]
    dsimp only
    have hpart : part s.buffer s.pos (min size (1024 - s.pos)) = some (v.back.take size) := by
      rw [part, if_pos (by omega), r.back]
      congr 1
      rw [show 1024 - s.pos = v.back.length by omega]
      rcases Nat.le_total size v.back.length with h | h
      · rw [Nat.min_eq_left h]
      · rw [Nat.min_eq_right h, List.take_of_length_le h, List.take_length]
    rw [hpart]
    have hsz : min k (size - min size (1024 - s.pos)) = min k (size - v.back.length) := by omega
    simp only [baseRead, hsz, Spec.read, r.source, Option.map_some]
    exact ⟨_, rfl, h1, rfl, by show s.pos + _ ≤ 1024; omega, by
      show s.buffer.drop (s.pos + _) = _
      rw [← List.drop_drop, r.back]
      rcases Nat.le_total size v.back.length with h | h
      · rw [show min size (1024 - s.pos) = size by omega]
      · rw [List.drop_of_length_le h, List.drop_of_length_le (by omega)], rfl⟩
  · rw [if_neg hp]
    have hb : v.back = [] := by
      apply List.eq_nil_of_length_eq_zero; omega
    simp only [baseRead, Spec.read, hb, r.source, List.take_nil, List.drop_nil, List.nil_append, List.length_nil, Nat.sub_zero]
    exact ⟨_, rfl, h1, h2, r.pos, by rw [← hb]; exact r.back, rfl⟩

theorem unread_rel {s : Stream A} {v : View A} (r : Rel s v) (d : A) (data : List A) (hf : v.back.length + data.length ≤ 1024) :
    ∃ s', unread d s data = some s' ∧ Rel s' ⟨data ++ v.back, v.source⟩ := by
  have hl := rel_len r
  have h1 := r.length
  unfold unread
  by_cases h0 : data.length = 0
  · rw [if_pos h0]
    rw [List.eq_nil_of_length_eq_zero h0]
    exact ⟨s, rfl, r⟩
  rw [if_neg h0]
  dsimp only
  rw [if_neg (by omega), overwrite, if_pos (by omega)]
  refine ⟨_, rfl, ?_, r.using_, by show s.pos - data.length ≤ 1024; omega, ?_, r.source⟩
  · simp only [List.length_append, List.length_take, List.length_drop]
    omega
  · show List.drop (s.pos - data.length) _ = _
    rw [List.append_assoc, List.drop_append_of_le_length (by rw [List.length_take]; omega)]
    rw [List.drop_of_length_le (by rw [List.length_take]; omega), List.nil_append]
    rw [show s.pos - data.length + data.length = s.pos by omega, r.back]

theorem exec_rel {s : Stream A} {v : View A} (r : Rel s v) (d : A) (op : Op A)
    (hf : ∀ data, op = .unread data → v.back.length + data.length ≤ 1024) :
    ∃ s', exec d s op = some ((Spec.exec v op).1, s') ∧ Rel s' (Spec.exec v op).2 := by
  cases op with
  | read size k => exact read_rel r size k
  | unread data =>
    obtain ⟨s', e, r'⟩ := unread_rel r d data (hf data rfl)
    exact ⟨s', by simp only [exec, e, Option.map_some, Spec.exec], r'⟩
  | peek k =>
    obtain ⟨s1, e1, r1⟩ := read_rel r 1 k
    simp only [exec, peek, e1, Option.bind_some, Spec.exec]
    have hlen : (Spec.read v 1 k).1.length ≤ 1 ∧ (Spec.read v 1 k).1.length + (Spec.read v 1 k).2.back.length ≤ 1024 := by
      have := rel_len r
      simp only [Spec.read, List.length_append, List.length_take, List.length_drop]
      omega
    cases hh : (Spec.read v 1 k).1 with
    | nil => exact ⟨s1, rfl, by simpa using r1⟩
    | cons a l =>
      rw [hh] at hlen
      simp only [List.length_cons] at hlen
      have hl0 : l = [] := List.eq_nil_of_length_eq_zero (by omega)
      subst hl0
      obtain ⟨s2, e2, r2⟩ := unread_rel r1 d [a] (by simp at hlen ⊢; omega)
      exact ⟨s2, by simp only [e2, Option.map_some, Option.toList_some], r2⟩

/-- C50: for every history of reads, peeks and data put back, with the wrapped stream delivering in any portions, every read
returns what was put back first and then what the wrapped stream delivers; as long as no more than 1024 elements are held back. -/
theorem pushback_partial (d : A) (source : List A) {ops : List (Op A)} (hf : Fits ⟨[], source⟩ ops) :
    ∃ s, run d (start d source) ops = some ((Spec.run ⟨[], source⟩ ops).1, s) ∧
      (isEnd s = true ↔ (Spec.run ⟨[], source⟩ ops).2.all = []) := by
  have key : ∀ (ops : List (Op A)) {s : Stream A} {v : View A}, Rel s v → Fits v ops →
      ∃ s', run d s ops = some ((Spec.run v ops).1, s') ∧ Rel s' (Spec.run v ops).2 := by
    intro ops
    induction ops with
    | nil => intro s v r _; exact ⟨s, rfl, r⟩
    | cons op ops ih =>
      intro s v r hf
      obtain ⟨s1, e1, r1⟩ := exec_rel r d op hf.1
      obtain ⟨s2, e2, r2⟩ := ih r1 hf.2
      exact ⟨s2, by simp only [run, e1, Option.bind_some, e2, Option.map_some, Spec.run], r2⟩
  obtain ⟨s, e, r⟩ := key ops (rel_start d source) hf
  refine ⟨s, e, ?_⟩
  have hl := rel_len r
  rw [isEnd, Bool.and_eq_true, decide_eq_true_eq, List.isEmpty_iff, r.using_, r.source, View.all, List.append_eq_nil_iff]
  constructor
  · rintro ⟨h1, h2⟩
    exact ⟨List.eq_nil_of_length_eq_zero (by omega), h2⟩
  · rintro ⟨h1, h2⟩
    rw [h1] at hl
    exact ⟨by simpa using hl, h2⟩

/-- C50: reading delivers a prefix of what is to come, and leaves the rest. -/
theorem read_prefix (v : View A) (size k : Nat) :
    (Spec.read v size k).1.length ≤ size ∧ (k = 0 ∨ size ≤ v.back.length ∨ v.source = [] ∨ v.back.length < (Spec.read v size k).1.length) ∧
      (Spec.read v size k).1 ++ (Spec.read v size k).2.all = v.all := by
  refine ⟨?_, ?_, ?_⟩
  · simp only [Spec.read, List.length_append, List.length_take]; omega
  · by_cases h1 : k = 0
    · exact Or.inl h1
    by_cases h2 : size ≤ v.back.length
    · exact Or.inr (Or.inl h2)
    by_cases h3 : v.source = []
    · exact Or.inr (Or.inr (Or.inl h3))
    have := List.length_pos_iff.2 h3
    right; right; right
    simp only [Spec.read, List.length_append, List.length_take]; omega
  · simp only [Spec.read, View.all]
    by_cases h : size ≤ v.back.length
    · rw [Nat.sub_eq_zero_of_le h, Nat.min_zero, List.take_zero, List.drop_zero, List.append_nil, ← List.append_assoc,
        List.take_append_drop]
    · rw [List.take_of_length_le (by omega), List.drop_of_length_le (by omega), List.nil_append, List.append_assoc,
        List.take_append_drop]

/-- C50 fails as it stands: whenever more than 1024 elements come to be held back, that, or reading them again, is undefined. -/
theorem pushback_refuted (d : A) (source : List A) {ops : List (Op A)} (hf : Fits ⟨[], source⟩ ops) (data : List A)
    (hover : 1024 < (Spec.run ⟨[], source⟩ ops).2.back.length + data.length) :
    run d (start d source) (ops ++ [.unread data, .read ((Spec.run ⟨[], source⟩ ops).2.back.length + data.length) 0]) = none := by
  have key : ∀ (ops tail : List (Op A)) {s : Stream A} {v : View A}, Rel s v → Fits v ops →
      (∀ s', Rel s' (Spec.run v ops).2 → run d s' tail = none) → run d s (ops ++ tail) = none := by
    intro ops
    induction ops with
    | nil => intro tail s v r _ h; exact h s r
    | cons op ops ih =>
      intro tail s v r hf h
      obtain ⟨s1, e1, r1⟩ := exec_rel r d op hf.1
      have := ih tail r1 hf.2 h
      simp only [List.cons_append, run, e1, Option.bind_some, this, Option.map_none]
  refine key ops _ (rel_start d source) hf fun s r => ?_
  generalize (Spec.run ⟨[], source⟩ ops).2 = v at r hover
  have hl := rel_len r
  have h1 := r.length
  have h2 := r.using_
  have hresize : (forwardResize d s.buffer (data.length - s.pos)).length = data.length - s.pos := by
    unfold forwardResize
    split_ifs with h
    · rw [List.length_drop]; omega
    · rw [List.length_append, List.length_replicate]; omega
  by_cases hp : s.pos = 0
  · -- the buffer is full: only the new data fits in the buffer, what was there before is lost
    rw [run]
    cases hu : exec d s (.unread data) with
    | none => rfl
    | some p =>
      rw [Option.bind_some]
      simp only [exec, unread, Option.map_eq_some_iff] at hu
      obtain ⟨s', hu, rfl⟩ := hu
      rw [if_neg (by omega), if_pos (by omega)] at hu
      simp only [Option.map_eq_some_iff] at hu
      obtain ⟨b, hb, rfl⟩ := hu
      have hblen : b.length = data.length := by
        unfold overwrite at hb
        split_ifs at hb with h3
        injection hb with hb; subst hb
        simp only [List.length_append, List.length_take, List.length_drop, hresize]
        omega
      have hread : read (⟨b, s.using_ + (data.length - s.pos), s.pos + (data.length - s.pos) - data.length, s.source⟩ : Stream A)
          (v.back.length + data.length) 0 = none := by
        unfold read
        rw [if_neg (by omega)]
        dsimp only
        rw [if_pos (by omega), part, if_neg (by omega)]
        rfl
      simp only [run, exec, hread, Option.bind_none, Option.map_none]
  · have hu : unread d s data = none := by
      unfold unread
      rw [if_neg (by omega)]
      dsimp only
      rw [if_pos (by omega)]
      dsimp only
      rw [overwrite, if_neg (by rw [hresize]; omega)]
      rfl
    simp only [run, exec, hu, Option.map_none, Option.bind_none]

/-! ### a history: read 2, put 3 back, peek, read 4 of which the wrapped stream delivers 1 -/

def history : List (Op Nat) := [.read 2 2, .unread [7, 8, 9], .peek 1, .read 4 1]

example : Fits ⟨[], [1, 2, 3, 4]⟩ history := by simp [history, Fits, Spec.exec, Spec.read]
example : Spec.run ⟨[], [1, 2, 3, 4]⟩ history = ([[1, 2], [], [7], [7, 8, 9, 3]], ⟨[], [4]⟩) := by decide

end ELC.Pushback
