import Verif.Links.Spec
import Mathlib.Data.List.Nodup
import Mathlib.Data.List.Induction
import Mathlib.Tactic.ByContra
import Mathlib.Tactic.SplitIfs
/-! Lemmas on linked nodes. -/
namespace ELC.Links

theorem putNext_ok {s : Store} {n : Nat} (a : Nat) (h : (s n).isSome) : ∃ s', putNext s n a = some s' ∧
    (∀ m, next s' m = if m = n then some a else next s m) ∧ (∀ m, before s' m = before s m) ∧ ∀ m, (s' m).isSome = (s m).isSome := by
  obtain ⟨x, hx⟩ := Option.isSome_iff_exists.1 h
  refine ⟨_, by rw [putNext, hx]; rfl, fun m => ?_, fun m => ?_, fun m => ?_⟩
  · simp only [next, upd]; split_ifs <;> rfl
  · simp only [before, upd]; split_ifs with h1
    · subst h1; rw [hx]; rfl
    · rfl
  · simp only [upd]; split_ifs with h1
    · subst h1; rw [hx]; rfl
    · rfl

theorem putBefore_ok {s : Store} {n : Nat} (a : Nat) (h : (s n).isSome) : ∃ s', putBefore s n a = some s' ∧
    (∀ m, before s' m = if m = n then some a else before s m) ∧ (∀ m, next s' m = next s m) ∧ ∀ m, (s' m).isSome = (s m).isSome := by
  obtain ⟨x, hx⟩ := Option.isSome_iff_exists.1 h
  refine ⟨_, by rw [putBefore, hx]; rfl, fun m => ?_, fun m => ?_, fun m => ?_⟩
  · simp only [before, upd]; split_ifs <;> rfl
  · simp only [next, upd]; split_ifs with h1
    · subst h1; rw [hx]; rfl
    · rfl
  · simp only [upd]; split_ifs with h1
    · subst h1; rw [hx]; rfl
    · rfl

theorem setNext_ok {s : Store} {n a : Nat} (h : (s n).isSome) (ha : (s a).isSome) : ∃ s', setNext s n a = some s' ∧
    (∀ m, next s' m = if m = n then some a else next s m) ∧ (∀ m, before s' m = if m = a then some n else before s m) ∧
    ∀ m, (s' m).isSome = (s m).isSome := by
  obtain ⟨s1, e1, a1, b1, c1⟩ := putNext_ok a h
  obtain ⟨s2, e2, a2, b2, c2⟩ := putBefore_ok n (show (s1 a).isSome by rw [c1]; exact ha)
  refine ⟨s2, by rw [setNext, e1]; exact e2, fun m => by rw [b2, a1], fun m => by rw [a2, b1], fun m => by rw [c2, c1]⟩

theorem setBefore_ok {s : Store} {n a : Nat} (h : (s n).isSome) (ha : (s a).isSome) : ∃ s', setBefore s n a = some s' ∧
    (∀ m, next s' m = if m = a then some n else next s m) ∧ (∀ m, before s' m = if m = n then some a else before s m) ∧
    ∀ m, (s' m).isSome = (s m).isSome := by
  obtain ⟨s1, e1, a1, b1, c1⟩ := putBefore_ok a h
  obtain ⟨s2, e2, a2, b2, c2⟩ := putNext_ok n (show (s1 a).isSome by rw [c1]; exact ha)
  refine ⟨s2, by rw [setBefore, e1]; exact e2, fun m => by rw [a2, b1], fun m => by rw [b2, a1], fun m => by rw [c2, c1]⟩

/-- Neighbours are linked both ways. -/
def Linked (s : Store) : List Nat → Prop
  | a :: b :: l => next s a = some b ∧ before s b = some a ∧ Linked s (b :: l)
  | _ => True

theorem linked_append {s : Store} : ∀ {p : List Nat} {a : Nat} {q : List Nat},
    Linked s (p ++ a :: q) ↔ Linked s (p ++ [a]) ∧ Linked s (a :: q) := by
  intro p
  induction p with
  | nil => intro a q; simp [Linked]
  | cons b p ih =>
    intro a q
    cases p with
    | nil => simp [Linked, and_assoc]
    | cons c p =>
      have := @ih a q
      simp only [List.cons_append, Linked] at this ⊢
      rw [this]; simp only [and_assoc]

/-- A change that leaves alone the forward links of all but the last and the backward links of all but the first. -/
theorem linked_frame {s s' : Store} : ∀ {l : List Nat}, (∀ a ∈ l.dropLast, next s' a = next s a) →
    (∀ a ∈ l.tail, before s' a = before s a) → Linked s l → Linked s' l := by
  intro l
  induction l with
  | nil => intros; trivial
  | cons a l ih =>
    intro h1 h2 h3
    cases l with
    | nil => trivial
    | cons b l =>
      refine ⟨?_, ?_, ih (fun c hc => h1 c ?_) (fun c hc => h2 c ?_) h3.2.2⟩
      · rw [h1 a (by simp [List.dropLast_cons₂])]; exact h3.1
      · rw [h2 b (by simp)]; exact h3.2.1
      · rw [List.dropLast_cons₂]; exact List.mem_cons_of_mem _ hc
      · rw [List.tail_cons]; exact List.mem_of_mem_tail hc

/-- The state of a list that holds `l`. -/
structure Holds (s : Store) (l : List Nat) : Prop where
  linked : Linked s (0 :: l ++ [1])
  nodup : (0 :: l ++ [1]).Nodup
  back : before s 0 = some 1
  around : next s 1 = some 0

theorem isSome_of_next {s : Store} {n a : Nat} (h : next s n = some a) : (s n).isSome := by
  unfold next at h
  cases hs : s n with
  | none => rw [hs] at h; cases h
  | some x => rfl

theorem isSome_of_before {s : Store} {n a : Nat} (h : before s n = some a) : (s n).isSome := by
  unfold before at h
  cases hs : s n with
  | none => rw [hs] at h; cases h
  | some x => rfl

theorem holds_add {s : Store} {l : List Nat} (h : Holds s l) {n : Nat} (hn : 2 ≤ n) (hnl : n ∉ l) :
    ∃ s', exec s (.add n) = some s' ∧ Holds s' (l ++ [n]) := by
  obtain ⟨p, b, hpb⟩ : ∃ p b, 0 :: l = p ++ [b] :=
    ⟨(0 :: l).dropLast, (0 :: l).getLast (by simp), (List.dropLast_append_getLast (by simp)).symm⟩
  have hl := h.linked
  have hnd := h.nodup
  rw [hpb] at hl hnd
  have hnb : n ∉ p ++ [b] := by rw [← hpb]; simp; exact ⟨by omega, hnl⟩
  rw [show p ++ [b] ++ [1] = p ++ b :: [1] by simp, linked_append] at hl
  obtain ⟨hl1, hl2⟩ := hl
  -- the new node
  have c1 : ∀ m, m ≠ n → create s n m = s m := fun m hm => by simp [create, upd, hm]
  have c2 : ∀ m, m ≠ n → next (create s n) m = next s m := fun m hm => by simp [next, c1 m hm]
  have c3 : ∀ m, m ≠ n → before (create s n) m = before s m := fun m hm => by simp [before, c1 m hm]
  have hbn : b ≠ n := by rintro rfl; simp at hnb
  have hb1 : b ≠ 1 := by
    rintro rfl
    simp [List.nodup_append] at hnd
  have hsn : (create s n n).isSome := by simp [create, upd]
  have hsb : (create s n b).isSome := by rw [c1 b hbn]; exact isSome_of_next hl2.1
  have hs1 : (create s n 1).isSome := by rw [c1 1 (by omega)]; exact isSome_of_before hl2.2.1
  obtain ⟨s1, e1, n1, b1, i1⟩ := setBefore_ok hsn hsb
  obtain ⟨s2, e2, n2, b2, i2⟩ := setNext_ok (s := s1) (n := n) (a := 1) (by rw [i1]; exact hsn) (by rw [i1]; exact hs1)
  have e : exec s (.add n) = some s2 := by
    simp only [exec, add, insertToBefore, c3 1 (by omega), hl2.2.1, Option.bind_some, e1, e2]
  refine ⟨s2, e, ?_, ?_, ?_, ?_⟩
  · rw [show 0 :: (l ++ [n]) ++ [1] = (0 :: l) ++ n :: [1] by simp, hpb, show p ++ [b] ++ n :: [1] = p ++ b :: [n, 1] by simp, linked_append]
    constructor
    · refine linked_frame (fun a ha => ?_) (fun a ha => ?_) hl1
      · have ha' : a ∈ p := by simpa using ha
        have : a ≠ b := by
          rintro rfl
          rw [List.append_assoc] at hnd
          rw [List.nodup_append] at hnd
          exact hnd.2.2 a ha' a (by simp) rfl
        have : a ≠ n := by rintro rfl; exact hnb (by simp [ha'])
        rw [n2, n1, if_neg (by assumption), if_neg (by assumption), c2 _ (by assumption)]
      · have ha' : a ∈ p ++ [b] := List.mem_of_mem_tail ha
        have h1 : a ≠ n := by rintro rfl; exact hnb ha'
        have h2 : a ≠ 1 := by
          rintro rfl
          rw [List.nodup_append] at hnd
          exact hnd.2.2 1 ha' 1 (by simp) rfl
        rw [b2, b1, if_neg h2, if_neg h1, c3 _ h1]
    · refine ⟨?_, ?_, ?_, ?_, trivial⟩
      · rw [n2, n1, if_neg hbn, if_pos rfl]
      · rw [b2, b1, if_neg (by omega), if_pos rfl]
      · rw [n2, if_pos rfl]
      · rw [b2, if_pos rfl]
  · have := h.nodup
    simp only [List.cons_append, List.nodup_cons, List.mem_append, List.nodup_append, List.mem_singleton] at this ⊢
    refine ⟨?_, ⟨⟨this.2.1, by simp, ?_⟩, by simp, ?_⟩⟩
    · rintro ((h1 | h1) | h1)
      · exact this.1 (Or.inl h1)
      · omega
      · omega
    · rintro a ha c rfl rfl; exact hnl ha
    · rintro a (ha | rfl) c rfl hc
      · exact this.2.2.2 a ha 1 rfl hc
      · omega
  · rw [b2, b1, if_neg (by omega), if_neg (by omega), c3 _ (by omega)]; exact h.back
  · rw [n2, n1, if_neg (by omega), if_neg (Ne.symm hb1), c2 _ (by omega)]; exact h.around

theorem filter_ne_of_not_mem {n : Nat} : ∀ {l : List Nat}, n ∉ l → l.filter (· ≠ n) = l := by
  intro l h
  rw [List.filter_eq_self]
  intro a ha
  simp only [ne_eq, decide_eq_true_eq]
  rintro rfl; exact h ha

theorem holds_destroy {s : Store} {u v : List Nat} {n : Nat} (h : Holds s (u ++ n :: v)) :
    ∃ s', destroy s n = some s' ∧ Holds s' (u ++ v) ∧ ∀ m, m ≠ n → (m ∉ u ∧ m ≠ 0 → next s' m = next s m) := by
  obtain ⟨p, b, hpb⟩ : ∃ p b, 0 :: u = p ++ [b] :=
    ⟨(0 :: u).dropLast, (0 :: u).getLast (by simp), (List.dropLast_append_getLast (by simp)).symm⟩
  obtain ⟨x, q, hxq⟩ : ∃ x q, v ++ [1] = x :: q := by
    cases v with
    | nil => exact ⟨1, [], rfl⟩
    | cons c v => exact ⟨c, v ++ [1], rfl⟩
  have hw : 0 :: (u ++ n :: v) ++ [1] = p ++ b :: n :: x :: q := by
    rw [show 0 :: (u ++ n :: v) ++ [1] = (0 :: u) ++ n :: (v ++ [1]) by simp, hpb, hxq]; simp
  have hw' : 0 :: (u ++ v) ++ [1] = p ++ b :: x :: q := by
    rw [show 0 :: (u ++ v) ++ [1] = (0 :: u) ++ (v ++ [1]) by simp, hpb, hxq]; simp
  have hl := h.linked
  have hnd := h.nodup
  rw [hw] at hl hnd
  rw [linked_append] at hl
  obtain ⟨hl1, hl2, hl3, hl4, hl5, hl6⟩ := hl
  have hnd' : (p ++ b :: x :: q).Nodup := by
    refine hnd.sublist ?_
    exact List.Sublist.append_left (List.Sublist.cons_cons _ (List.sublist_cons_self _ _)) _
  simp only [List.nodup_append, List.nodup_cons, List.mem_cons, not_or] at hnd
  obtain ⟨hp, ⟨⟨hbn, hbx, hbq⟩, ⟨hnx, hnq⟩, hxq', hq⟩, hdis⟩ := hnd
  have hsb : (s b).isSome := isSome_of_next hl2
  have hsx : (s x).isSome := isSome_of_before hl5
  obtain ⟨s1, e1, n1, b1, i1⟩ := setNext_ok hsb hsx
  have c1 : ∀ m, m ≠ n → upd s1 n none m = s1 m := fun m hm => by simp [upd, hm]
  have c2 : ∀ m, m ≠ n → next (upd s1 n none) m = next s1 m := fun m hm => by simp [next, c1 m hm]
  have c3 : ∀ m, m ≠ n → before (upd s1 n none) m = before s1 m := fun m hm => by simp [before, c1 m hm]
  have h0 : 0 = b ∨ 0 ∈ p := by
    cases p with
    | nil => simp at hpb; exact Or.inl hpb.1
    | cons c p => simp at hpb; right; simp [hpb.1]
  have h1 : 1 = x ∨ 1 ∈ q := by
    have : 1 ∈ x :: q := by rw [← hxq]; simp
    simpa using this
  have h0n : (0 : Nat) ≠ n := by
    rcases h0 with h0 | h0
    · rw [h0]; exact hbn
    · exact hdis 0 h0 n (by simp)
  have h1n : (1 : Nat) ≠ n := by
    rcases h1 with h1 | h1
    · rw [h1]; exact Ne.symm hnx
    · rintro rfl; exact hnq h1
  have h0x : (0 : Nat) ≠ x := by
    rcases h0 with h0 | h0
    · rw [h0]; exact hbx
    · exact hdis 0 h0 x (by simp)
  have h1b : (1 : Nat) ≠ b := by
    rcases h1 with h1 | h1
    · rw [h1]; exact Ne.symm hbx
    · rintro rfl; exact hbq h1
  refine ⟨upd s1 n none, ?_, ⟨?_, ?_, ?_, ?_⟩, ?_⟩
  · simp only [destroy, removeFromList, hl3, hl4, Option.bind_some, e1, Option.map_some]
  · rw [hw', linked_append]
    refine ⟨linked_frame (fun a ha => ?_) (fun a ha => ?_) hl1, ?_, ?_, linked_frame (fun a ha => ?_) (fun a ha => ?_) hl6⟩
    · have ha' : a ∈ p := by simpa using ha
      have h2 : a ≠ b := hdis a ha' b (by simp)
      have h3 : a ≠ n := hdis a ha' n (by simp)
      rw [c2 a h3, n1, if_neg h2]
    · have ha' : a ∈ p ++ [b] := List.mem_of_mem_tail ha
      have h3 : a ≠ n ∧ a ≠ x := by
        rcases List.mem_append.1 ha' with h | h
        · exact ⟨hdis a h n (by simp), hdis a h x (by simp)⟩
        · simp at h; subst h; exact ⟨hbn, hbx⟩
      rw [c3 a h3.1, b1, if_neg h3.2]
    · rw [c2 b hbn, n1, if_pos rfl]
    · rw [c3 x (Ne.symm hnx), b1, if_pos rfl]
    · have ha' : a ∈ x :: q := (List.dropLast_sublist _).mem ha
      have h3 : a ≠ n ∧ a ≠ b := by
        rcases List.mem_cons.1 ha' with h4 | h4
        · subst h4; exact ⟨Ne.symm hnx, Ne.symm hbx⟩
        · exact ⟨by rintro rfl; exact hnq h4, by rintro rfl; exact hbq h4⟩
      rw [c2 a h3.1, n1, if_neg h3.2]
    · have h4 : a ∈ q := by simpa using ha
      have h2 : a ≠ n := by rintro rfl; exact hnq h4
      have h3 : a ≠ x := by rintro rfl; exact hxq' h4
      rw [c3 a h2, b1, if_neg h3]
  · rw [hw']; exact hnd'
  · rw [c3 0 h0n, b1, if_neg h0x]; exact h.back
  · rw [c2 1 h1n, n1, if_neg h1b]; exact h.around
  · rintro m hm ⟨hmu, hm0⟩
    have hmb : m ≠ b := by
      rintro rfl
      have : m ∈ 0 :: u := by rw [hpb]; simp
      rcases List.mem_cons.1 this with h | h
      · exact hm0 h
      · exact hmu h
    rw [c2 m hm, n1, if_neg hmb]

theorem walkFrom_linked {s : Store} : ∀ {l : List Nat} {i : Nat} {fuel : Nat}, l.length < fuel → Linked s (i :: l ++ [1]) →
    1 ∉ l → ∃ j, next s i = some j ∧ walkFrom s fuel j = some l := by
  intro l
  induction l with
  | nil =>
    intro i fuel hf h _
    obtain ⟨f, rfl⟩ : ∃ f, fuel = f + 1 := ⟨fuel - 1, by omega⟩
    exact ⟨1, h.1, by simp [walkFrom]⟩
  | cons a l ih =>
    intro i fuel hf h h1
    obtain ⟨f, rfl⟩ : ∃ f, fuel = f + 1 := ⟨fuel - 1, by omega⟩
    simp only [List.mem_cons, not_or] at h1
    simp only [List.length_cons] at hf
    obtain ⟨j, e1, e2⟩ := ih (i := a) (fuel := f) (by omega) h.2.2 h1.2
    refine ⟨a, h.1, ?_⟩
    rw [walkFrom, if_neg (Ne.symm h1.1), e1, Option.bind_some, e2]
    rfl

theorem walkBackFrom_linked {s : Store} : ∀ {l : List Nat} {e : Nat} {fuel : Nat}, l.length < fuel → Linked s ((0 :: l) ++ [e]) →
    0 ∉ l → walkBackFrom s fuel e = some l.reverse := by
  intro l
  induction l using List.reverseRecOn with
  | nil =>
    intro e fuel hf h _
    obtain ⟨f, rfl⟩ : ∃ f, fuel = f + 1 := ⟨fuel - 1, by omega⟩
    rw [walkBackFrom, h.2.1]; rfl
  | append_singleton l a ih =>
    intro e fuel hf h h0
    obtain ⟨f, rfl⟩ : ∃ f, fuel = f + 1 := ⟨fuel - 1, by omega⟩
    simp only [List.mem_append, List.mem_singleton, not_or] at h0
    simp only [List.length_append, List.length_cons, List.length_nil] at hf
    rw [show (0 :: (l ++ [a])) ++ [e] = (0 :: l) ++ a :: [e] by simp, linked_append] at h
    have := ih (e := a) (fuel := f) (by omega) h.1 h0.1
    rw [walkBackFrom, h.2.2.1, Option.bind_some, if_neg (Ne.symm h0.2), this]
    simp

end ELC.Links
