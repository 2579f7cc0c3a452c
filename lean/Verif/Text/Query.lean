import Verif.Text.Props
import Verif.StrCmp.Props
/-! Properties C64, C67, C68, C69 and C71: comparing, searching, replacing. -/
namespace ELC.Text
open Hash Str Str.Spec StrEdit StrEdit.Spec StrCmp StrCmp.Spec Compare Compare.Spec Search.Spec Spec

section
variable {A : Type} {hc : A → Word} [Inhabited A] [DecidableEq A] {gold : Nat → Nat} {th : Nat}

/-! ### C64: comparing -/

omit [Inhabited A] in
/-- A string that is found equal to a compile-time text is set to that text. -/
theorem eqLit_ok (zero : A) {t : Text A} (o : Ok hc t) {a : List A}
    (h : eqV t a [zero] = some (decide (text t = a))) :
    ∃ t', eqLit zero t a = some (decide (text t = a), t') ∧ Ok hc t' ∧ text t' = text t := by
  rw [eqLit, h]
  by_cases e : text t = a
  · exact ⟨.lit a, by simp [e], trivial, e.symm⟩
  · exact ⟨t, by simp [e], o, rfl⟩

/-- **C64 (`==`).** The answer is right, and both strings keep their characters. -/
theorem equal_partial (zero : A) {t a : Text A} (o : Ok hc t) (oa : Ok hc a) (h : EqOk t a) :
    ∃ t' a', eq zero t a = some (decide (text t = text a), t', a') ∧ (Ok hc t' ∧ text t' = text t) ∧
      Ok hc a' ∧ text a' = text a := by
  have viaLit : ∀ l, a = .lit l → eqV t l [zero] = some (decide (text t = l)) →
      ∃ t' a', eq zero t a = some (decide (text t = text a), t', a') ∧
        (Ok hc t' ∧ text t' = text t) ∧ Ok hc a' ∧ text a' = text a := by
    rintro l rfl e
    obtain ⟨t', et, ot, tt⟩ := eqLit_ok zero o e
    exact ⟨t', .lit l, by simp only [eq, et, Option.map_some]; rfl, ⟨ot, tt⟩, trivial, rfl⟩
  have viaChr : ∀ c, a = .chr c → eqV t [c] [] = some (decide (text t = [c])) →
      ∃ t' a', eq zero t a = some (decide (text t = text a), t', a') ∧
        (Ok hc t' ∧ text t' = text t) ∧ Ok hc a' ∧ text a' = text a := by
    rintro c rfl e
    exact ⟨t, .chr c, by simp only [eq, e, Option.map_some]; rfl, ⟨o, rfl⟩, trivial, rfl⟩
  cases t with
  | node n =>
    cases a with
    | node m => exact ⟨_, _, by simp only [eq, equal_correct_partial o oa h, Option.map_some]; rfl, ⟨o, rfl⟩, oa, rfl⟩
    | lit l => exact viaLit l rfl (equal_view_correct_partial o h l)
    | chr c => exact viaChr c rfl (equal_view_correct_partial o h [c])
  | lit l =>
    cases a with
    | node m =>
      obtain ⟨a', ea, oa', ta⟩ := eqLit_ok zero (t := .node m) oa (a := l)
        (equal_view_correct_partial oa h l)
      refine ⟨.lit l, a', ?_, ⟨trivial, rfl⟩, oa', ta⟩
      simp only [eq, ea, Option.map_some]
      rw [decide_eq_decide.mpr (eq_comm (a := text (Text.node m)) (b := l))]
      rfl
    | lit l' => exact viaLit l' rfl (equalN_texts h)
    | chr c => exact viaChr c rfl (equalN_texts h)
  | chr x =>
    cases a with
    | node m =>
      refine ⟨.chr x, .node m, ?_, ⟨trivial, rfl⟩, oa, rfl⟩
      have e : eqV (.node m) [x] [] = some (decide (chars m = [x])) :=
        equal_view_correct_partial oa h [x]
      simp only [eq, e, Option.map_some]
      rw [decide_eq_decide.mpr (eq_comm (a := chars m) (b := [x]))]
      rfl
    | lit l' => exact viaLit l' rfl (equalN_texts (a := [x]) h)
    | chr c => exact viaChr c rfl (equalN_texts (a := [x]) h)

/-- **C64 (`==` of short strings).** When the first is not longer, the answer is whether it is a
beginning of the other. -/
theorem equal_short_characterised (zero : A) {t a : Text A} (s : Short t) (sa : Short a)
    (h : (text t).length ≤ (text a).length) :
    (eq zero t a).map (·.1) = some (decide (text t <+: text a)) := by
  cases a with
  | node m => exact absurd sa id
  | lit l =>
    have e : eqV t l [zero] = some (decide (text t <+: l)) := by
      rw [eqV_short s]; exact equalN_prefix h
    simp only [eq, eqLit, e, Option.map_some]
    show some (if decide (text t <+: l) = true then (true, Text.lit l) else (false, t)).1 =
      some (decide (text t <+: l))
    by_cases hp : text t <+: l <;> simp [hp]
  | chr c =>
    have e : eqV t [c] [] = some (decide (text t <+: [c])) := by
      rw [eqV_short s]; exact equalN_prefix h
    simp only [eq, e, Option.map_some]; rfl

/-- **C64 (`==` with a zero-terminated text).** -/
theorem equal_terminated_partial {zero : A} {t : Text A} (o : Ok hc t)
    (q : OnNode (fun n => Sequential n ∧ chars n ≠ []) t) {s mem : List A}
    (ht : Terminated zero s mem) : eqZ zero t mem = some (decide (text t = s)) := by
  cases t with
  | lit m => exact equalZero_spec _ _ _ _ rfl ht
  | chr a => exact equalZero_spec 1 [a] _ _ rfl ht
  | node n => exact equal_text_correct_partial o q.1 ht q.2

variable {cmp : A → A → Ordering}

omit [Inhabited A] [DecidableEq A] in
theorem sameTo_eq (hcmp : ∀ x y, cmp x y = .eq ↔ x = y) {a b : List A} (hl : a.length = b.length)
    (h : SameTo cmp a b a.length) : a = b := by
  refine List.ext_getElem? fun i => ?_
  by_cases hi : i < a.length
  · obtain ⟨x, y, hx, hy, e⟩ := h i hi
    rw [hx, hy, (hcmp x y).mp e]
  · rw [List.getElem?_eq_none (by omega), List.getElem?_eq_none (by omega)]

omit [Inhabited A] [DecidableEq A] in
/-- Only equal texts compare equal. -/
theorem byLength_eq (hcmp : ∀ x y, cmp x y = .eq ↔ x = y) {a b : List A}
    (h : ByLength cmp a b .eq) : a = b := by
  rcases h with ⟨_, h⟩ | ⟨_, h⟩ | ⟨hl, h⟩
  · cases h
  · cases h
  · rcases h with ⟨i, _, _, x, y, _, _, _, h⟩ | ⟨h, _⟩
    · exact absurd rfl h
    · exact sameTo_eq hcmp hl h

omit [Inhabited A] [DecidableEq A] in
theorem sameTo_swap (hs : ∀ x y, cmp y x = (cmp x y).swap) {a b : List A} {n : Nat}
    (h : SameTo cmp a b n) : SameTo cmp b a n := by
  intro j hj
  obtain ⟨x, y, hx, hy, e⟩ := h j hj
  exact ⟨y, x, hy, hx, by rw [hs, e]; rfl⟩

omit [Inhabited A] [DecidableEq A] in
theorem byLength_swap (hs : ∀ x y, cmp y x = (cmp x y).swap) {a b : List A} {o : Ordering}
    (h : ByLength cmp a b o) : ByLength cmp b a o.swap := by
  rcases h with ⟨hl, rfl⟩ | ⟨hl, rfl⟩ | ⟨hl, h⟩
  · exact .inr (.inl ⟨hl, rfl⟩)
  · exact .inl ⟨hl, rfl⟩
  · refine .inr (.inr ⟨hl.symm, ?_⟩)
    rw [← hl]
    rcases h with ⟨i, hi, hd, x, y, hx, hy, rfl, hne⟩ | ⟨h, rfl⟩
    · refine .inl ⟨i, hi, sameTo_swap hs hd, y, x, hy, hx, (hs x y).symm, ?_⟩
      rw [← hs]; intro h
      rw [hs] at h
      exact hne (by cases e : cmp x y <;> rw [e] at h <;> first | rfl | cases h)
    · exact .inr ⟨sameTo_swap hs h, rfl⟩

omit [Inhabited A] [DecidableEq A] in
theorem compareN_texts {a w behind : List A} (h : a.length = w.length) :
    ∃ o, compareN cmp a.length a (w ++ behind) = some o ∧ ByLength cmp a w o := by
  obtain ⟨o, e, b⟩ := compareN_spec (cmp := cmp) a.length a (w ++ behind) (by omega) (by simp; omega)
  refine ⟨o, e, .inr (.inr ⟨h, ?_⟩)⟩
  rcases b with ⟨i, hi, hd, x, y, hx, hy, r⟩ | ⟨hs, r⟩
  · refine .inl ⟨i, hi, fun j hj => ?_, x, y, hx, ?_, r⟩
    · obtain ⟨x, y, h1, h2, h3⟩ := hd j hj
      rw [List.getElem?_append_left (by omega)] at h2
      exact ⟨x, y, h1, h2, h3⟩
    · rwa [List.getElem?_append_left (by omega)] at hy
  · refine .inr ⟨fun j hj => ?_, r⟩
    obtain ⟨x, y, h1, h2, h3⟩ := hs j hj
    rw [List.getElem?_append_left (by omega)] at h2
    exact ⟨x, y, h1, h2, h3⟩

omit [Inhabited A] in
theorem cmpLit_ok (hcmp : ∀ x y, cmp x y = .eq ↔ x = y) (zero : A) {t : Text A} (o : Ok hc t)
    {a : List A} {r : Ordering} (h : cmpV cmp t a [zero] = some r) (b : ByLength cmp (text t) a r) :
    ∃ t', cmpLit cmp zero t a = some (r, t') ∧ Ok hc t' ∧ text t' = text t := by
  rw [cmpLit, h]
  by_cases e : r = .eq
  · subst e
    exact ⟨.lit a, by simp, trivial, (byLength_eq hcmp b).symm⟩
  · exact ⟨t, by simp [e], o, rfl⟩

/-- **C64 (`<=>`).** Strings are ordered by length, then by characters, and keep their characters. -/
theorem order_partial (hcmp : ∀ x y, cmp x y = .eq ↔ x = y) (hs : ∀ x y, cmp y x = (cmp x y).swap)
    (zero : A) {t a : Text A} (o : Ok hc t) (oa : Ok hc a) (h : CmpOk t a) :
    ∃ r t' a', cmpT cmp zero t a = some (r, t', a') ∧ ByLength cmp (text t) (text a) r ∧
      (Ok hc t' ∧ text t' = text t) ∧ Ok hc a' ∧ text a' = text a := by
  have viaLit : ∀ l, a = .lit l → (∃ r, cmpV cmp t l [zero] = some r ∧ ByLength cmp (text t) l r) →
      ∃ r t' a', cmpT cmp zero t a = some (r, t', a') ∧ ByLength cmp (text t) (text a) r ∧
        (Ok hc t' ∧ text t' = text t) ∧ Ok hc a' ∧ text a' = text a := by
    rintro l rfl ⟨r, e, b⟩
    obtain ⟨t', et, ot, tt⟩ := cmpLit_ok hcmp zero o e b
    exact ⟨r, t', .lit l, by simp only [cmpT, et, Option.map_some], b, ⟨ot, tt⟩, trivial, rfl⟩
  have viaChr : ∀ c, a = .chr c → (∃ r, cmpV cmp t [c] [] = some r ∧ ByLength cmp (text t) [c] r) →
      ∃ r t' a', cmpT cmp zero t a = some (r, t', a') ∧ ByLength cmp (text t) (text a) r ∧
        (Ok hc t' ∧ text t' = text t) ∧ Ok hc a' ∧ text a' = text a := by
    rintro c rfl ⟨r, e, b⟩
    exact ⟨r, t, .chr c, by simp only [cmpT, e, Option.map_some], b, ⟨o, rfl⟩, trivial, rfl⟩
  cases t with
  | node n =>
    cases a with
    | node m =>
      obtain ⟨r, e, b⟩ := order_correct_partial (fun x => (hcmp x x).mpr rfl) o oa h
      exact ⟨r, .node n, .node m, by simp only [cmpT, e, Option.map_some], b, ⟨o, rfl⟩, oa, rfl⟩
    | lit l => exact viaLit l rfl (order_view_correct_partial o h l)
    | chr c => exact viaChr c rfl (order_view_correct_partial o h [c])
  | lit l =>
    cases a with
    | node m =>
      obtain ⟨r, e, b⟩ := order_view_correct_partial (cmp := cmp) oa h l
      obtain ⟨a', ea, oa', ta⟩ := cmpLit_ok hcmp zero (t := .node m) oa e b
      exact ⟨r.swap, .lit l, a', by simp only [cmpT, ea, Option.map_some], byLength_swap hs b,
        ⟨trivial, rfl⟩, oa', ta⟩
    | lit l' => exact viaLit l' rfl (compareN_texts h)
    | chr c => exact viaChr c rfl (compareN_texts h)
  | chr x =>
    cases a with
    | node m =>
      obtain ⟨r, e, b⟩ := order_view_correct_partial (cmp := cmp) oa h [x]
      have e : cmpV cmp (.node m) [x] [] = some r := e
      exact ⟨r.swap, .chr x, .node m, by simp only [cmpT, e, Option.map_some], byLength_swap hs b,
        ⟨trivial, rfl⟩, oa, rfl⟩
    | lit l' => exact viaLit l' rfl (compareN_texts (a := [x]) h)
    | chr c => exact viaChr c rfl (compareN_texts (a := [x]) h)

omit [Inhabited A] in
/-- **C64 (`<=>` with a zero-terminated text).** Short strings are ordered by length, then by
characters. -/
theorem order_terminated_short_correct {zero : A} {t : Text A} (s : Short t) {w mem : List A}
    (ht : Terminated zero w mem) :
    ∃ r, cmpZ cmp zero t mem = some r ∧ ByLength cmp (text t) w r := by
  cases t with
  | node n => exact absurd s id
  | lit m => exact (compare_sized_zero_correct cmp m ht).1
  | chr a => exact (compare_sized_zero_correct cmp [a] ht).1

/-! ### C67: searching -/

/-- **C67 (a character, from either end).** -/
theorem find_partial (zero : A) {t : Text A} (o : Ok hc t) (d : OnNode DataOk t) (ch : A) :
    (∃ r, find zero t ch = some r ∧ IsFirst (· = ch) (text t) r) ∧
    ∃ r, reverseFind zero t ch = some r ∧ IsLast (· = ch) (text t) r := by
  have key := Search.in_range_correct ch (text t)
  cases t with
  | lit m => exact ⟨⟨_, rfl, key.1⟩, _, rfl, key.2⟩
  | chr a =>
    have hr : (if a = ch then some 0 else none) = Search.inRange ch (text (.chr a)) ∧
        (if a = ch then some 0 else none) = Search.inRangeReverse ch (text (.chr a)) := by
      by_cases h : a = ch
      · subst h; simp [text, Search.inRange, Search.inRangeReverse, Search.findFwd, Search.findBack]
      · simp [text, Search.inRange, Search.inRangeReverse, Search.findFwd, Search.findBack, h]
    rw [← hr.1, ← hr.2] at key
    exact ⟨⟨_, rfl, key.1⟩, _, rfl, key.2⟩
  | node n =>
    have v := view_ok zero (t := .node n) o d
    simp only [find, reverseFind, v, Option.map_some]
    exact ⟨⟨_, rfl, key.1⟩, _, rfl, key.2⟩

/-- **C67 (a character from a position on).** The answer counts from that position, not from the
beginning of the string. -/
theorem find_from_characterised (zero : A) {t : Text A} (o : Ok hc t) (d : OnNode DataOk t) (ch : A)
    {b : Nat} (hb : b ≤ (text t).length) :
    ∃ r, findFrom zero t ch b = some r ∧ IsFirstFrom (· = ch) (text t) b (r.map (· + b)) :=
  ⟨_, findFrom_ok zero o d ch hb,
    isFirstFrom_of_drop (Search.in_range_correct ch ((text t).drop b)).1⟩

/-- **C67 (a pattern stored in a node, from a position on).** The answer counts from the beginning.
`pad` is the memory behind the characters: it starts with a character that is not in the pattern. -/
theorem find_string_partial (zero : A) (idx : A → Nat) {pad : List A} {t : Text A} (o : Ok hc t)
    (d : OnNode DataOk t) {m : Node A} (w : WF hc m) (rc : RangeClear m 0 (chars m).length)
    {b : Nat} (hb : b ≤ (text t).length) (hp : chars m ≠ []) {z : A}
    (hz : pad.head? = some z) (hzp : z ∉ chars m) (hpad : (chars m).length ≤ pad.length) :
    ∃ r, findTextFrom zero idx pad t (.node m) b = some r ∧
      IsFirstOccurrenceFrom (chars m) (text t) b r := by
  obtain ⟨r, e, h⟩ := findTextFrom_node zero idx o d w rc hb hp hz hzp hpad
  exact ⟨_, e, isFirstOccurrenceFrom_of_drop hb h⟩

/-- **C67 (a compile-time pattern or a view, from a position on).** The answer counts from that
position. -/
theorem find_view_characterised (zero : A) (idx : A → Nat) {pad : List A} {t : Text A} (o : Ok hc t)
    (d : OnNode DataOk t) {p : List A} {b : Nat} (hb : b ≤ (text t).length) (hp : p ≠ []) {z : A}
    (hz : pad.head? = some z) (hzp : z ∉ p) (hpad : p.length ≤ pad.length) :
    ∃ r, findViewFrom zero idx pad t p b = some r ∧ findTextFrom zero idx pad t (.lit p) b = some r ∧
      IsFirstOccurrenceFrom p (text t) b (r.map (· + b)) := by
  obtain ⟨r, e, h⟩ := findViewFrom_ok zero idx o d hb hp hz hzp hpad
  exact ⟨r, e, e, isFirstOccurrenceFrom_of_drop hb h⟩

/-! ### C68: replacing -/

/-- **C68 (a range).** -/
theorem replace_range_correct (hg : ∀ n, n ≤ gold n) {t str : Text A} (o : Ok hc t) (os : Ok hc str)
    {pos size : Nat} (h : pos + size ≤ (text t).length) (hl : (text t).length < 2 ^ 64) :
    ∃ r, replaceAt hc gold th t pos size str = some r ∧ Ok hc r ∧
      text r = (text t).take pos ++ text str ++ (text t).drop (pos + size) := by
  unfold replaceAt
  refine (substr_ok o pos (Nat.zero_le _)).bind fun a oa ea => ?_
  obtain ⟨r, a', e, ⟨or, tr⟩, _⟩ := pushBack_ok (th := th) hg oa os
  rw [e, Option.bind_some]
  refine (substr_ok o (2 ^ 64 - 1) h).bind fun c oc ec => ?_
  refine (pushBackMove_ok hg or oc).congr ?_
  rw [tr, ea, ec, npos_take (by simp; omega)]; rfl

/-- **C68 (every occurrence of a string stored in a node).** -/
theorem replace_string_partial (hg : ∀ n, n ≤ gold n) (zero : A) (idx : A → Nat) {pad : List A}
    {t : Text A} (o : Ok hc t) (d : OnNode DataOk t) {m : Node A} (w : WF hc m)
    (rc : RangeClear m 0 (chars m).length) (hp : chars m ≠ []) {z : A}
    (hz : pad.head? = some z) (hzp : z ∉ chars m) (hpad : (chars m).length ≤ pad.length)
    {str2 : Text A} (o2 : Ok hc str2) (hl : (text t).length < 2 ^ 64) {fuel : Nat}
    (hf : (text t).length < fuel) :
    ∃ r, replaceText hc gold th zero idx pad t (.node m) str2 fuel = some r ∧ Ok hc r ∧
      ReplaceAll (chars m) (text str2) (text t) (text r) := by
  obtain ⟨out, ⟨r, e, or, tr⟩, h⟩ := replaceTextLoop_ok (th := th) hg zero idx o d w rc hp hz hzp hpad
    hl fuel 0 str2 (.lit []) o2 rfl (Nat.zero_le _) (by omega) trivial
  refine ⟨r, e, or, ?_⟩
  rw [tr]; exact h

/-- **C68 (a character that occurs at most once).** -/
theorem replace_char_partial (hg : ∀ n, n ≤ gold n) (zero : A) {t str : Text A} (o : Ok hc t)
    (d : OnNode DataOk t) (os : Ok hc str) (ch : A) (hl : (text t).length < 2 ^ 64) {fuel : Nat}
    (hf : 2 ≤ fuel) :
    (ch ∉ text t → ∃ r, replaceChar hc gold th zero t ch str fuel = some r ∧ Ok hc r ∧
      text r = text t) ∧
    ∀ a b, text t = a ++ ch :: b → ch ∉ a → ch ∉ b →
      ∃ r, replaceChar hc gold th zero t ch str fuel = some r ∧ Ok hc r ∧
        text r = a ++ text str ++ b := by
  obtain ⟨f, rfl⟩ : ∃ f, fuel = f + 1 + 1 := ⟨fuel - 2, by omega⟩
  constructor
  · intro h
    refine (replaceLoop_none (aret := .lit []) hg zero o d hl (Nat.zero_le _) trivial (by simpa using h)).congr ?_
    rfl
  · intro a b e ha hb
    unfold replaceChar
    rw [replaceLoop, findFrom_ok zero o d ch (Nat.zero_le _), Option.bind_some]
    have hk : Search.inRange ch ((text t).drop 0) = some a.length := by
      have hf := (Search.in_range_correct ch ((text t).drop 0)).1
      cases hi : Search.inRange ch ((text t).drop 0) with
      | none =>
        rw [hi] at hf
        exact absurd rfl (hf ch (by rw [List.drop_zero, e]; simp))
      | some k =>
        rw [hi] at hf
        obtain ⟨⟨x, h1, rfl⟩, h2⟩ := hf
        rw [List.drop_zero, e] at h1 h2
        rcases Nat.lt_trichotomy k a.length with h | h | h
        · rw [List.getElem?_append_left h] at h1
          exact absurd (List.mem_of_getElem? h1) ha
        · rw [h]
        · exact absurd rfl (h2 a.length h x (by simp))
    rw [hk]
    dsimp only
    rw [wsub_eq (Nat.zero_le _), Nat.sub_zero]
    obtain ⟨s, es, oS, ts⟩ := substr_ok o a.length (Nat.zero_le _)
    rw [es, Option.bind_some]
    obtain ⟨s', a', e', ⟨o', t'⟩, _⟩ := pushBack_ok (th := th) hg oS os
    rw [e', Option.bind_some]
    obtain ⟨ar, ea, oar, tar⟩ := pushBackMove_ok (th := th) (t := .lit []) hg trivial o'
    rw [ea, Option.bind_some]
    have hd : (text t).drop (a.length + 1) = b := by
      rw [e, List.drop_append]; simp
    refine (replaceLoop_none hg zero o d hl (by rw [e]; simp) oar (by rw [hd]; exact hb)).congr ?_
    rw [tar, t', ts, hd, e]
    simp [text]

/-- The loop asks for the position from the beginning of what is left, and goes on from there as if it were a position in the
string: it never gets past the last occurrence. -/
theorem replaceLoop_stuck (hg : ∀ n, n ≤ gold n) (zero : A) {t : Text A} (o : Ok hc t) (d : OnNode DataOk t) (ch : A) :
    ∀ (fuel pos : Nat) (str aret : Text A), Ok hc str → Ok hc aret → 1 ≤ pos → ch ∈ (text t).drop pos →
      replaceLoop hc gold th zero t ch fuel pos str aret = none := by
  intro fuel
  induction fuel with
  | zero => intros; rfl
  | succ fuel ih =>
    intro pos str aret os oa h1 hm
    have hp : pos ≤ (text t).length := by
      apply Nat.le_of_not_lt
      intro h
      rw [List.drop_of_length_le (by omega)] at hm
      simp at hm
    rw [replaceLoop, findFrom_ok zero o d ch hp, Option.bind_some]
    have hf := (Search.in_range_correct ch ((text t).drop pos)).1
    cases hi : Search.inRange ch ((text t).drop pos) with
    | none =>
      rw [hi] at hf
      exact absurd rfl (hf ch hm)
    | some p =>
      rw [hi] at hf
      obtain ⟨⟨x, hx, rfl⟩, _⟩ := hf
      dsimp only
      obtain ⟨s, es, oS, _⟩ := substr_ok o (wsub p pos) hp
      rw [es, Option.bind_some]
      obtain ⟨s', a', e', ⟨o', _⟩, oa', _⟩ := pushBack_ok (th := th) hg oS os
      rw [e', Option.bind_some]
      obtain ⟨ar, ea, oar, _⟩ := pushBackMove_ok (th := th) hg oa o'
      rw [ea, Option.bind_some]
      refine ih (p + 1) a' ar oa' oar (by omega) ?_
      rw [List.getElem?_drop] at hx
      have : ((text t).drop (p + 1))[pos + p - (p + 1)]? = some x := by
        rw [List.getElem?_drop, ← hx]
        congr 1
        omega
      exact List.mem_of_getElem? this

/-- **C68 (a character), exactly**: replacing a character ends if and only if the string has it at most once; a string that has
it twice or more is never replaced, whatever it is replaced by. -/
theorem replace_char_characterised (hg : ∀ n, n ≤ gold n) (zero : A) {t str : Text A} (o : Ok hc t)
    (d : OnNode DataOk t) (os : Ok hc str) (ch : A) (hl : (text t).length < 2 ^ 64) :
    (∃ fuel r, replaceChar hc gold th zero t ch str fuel = some r) ↔ (text t).count ch ≤ 1 := by
  constructor
  · rintro ⟨fuel, r, h⟩
    apply Nat.le_of_not_lt
    intro h2
    have hm : ch ∈ text t := List.count_pos_iff.1 (by omega)
    obtain ⟨a, b, e, ha⟩ := List.eq_append_cons_of_mem hm
    have hb : ch ∈ b := by
      apply List.count_pos_iff.1
      rw [e, List.count_append, List.count_cons_self, List.count_eq_zero_of_not_mem ha] at h2
      omega
    cases fuel with
    | zero => simp [replaceChar, replaceLoop] at h
    | succ fuel =>
      rw [replaceChar, replaceLoop, findFrom_ok zero o d ch (Nat.zero_le _), Option.bind_some] at h
      have hf := (Search.in_range_correct ch ((text t).drop 0)).1
      cases hi : Search.inRange ch ((text t).drop 0) with
      | none =>
        rw [hi] at hf
        exact absurd rfl (hf ch (by simpa using hm))
      | some k =>
        rw [hi] at hf h
        obtain ⟨⟨x, hx, rfl⟩, hfirst⟩ := hf
        rw [List.drop_zero] at hx hfirst
        dsimp only at h
        obtain ⟨s, es, oS, _⟩ := substr_ok o (wsub k 0) (Nat.zero_le _)
        rw [es, Option.bind_some] at h
        obtain ⟨s', a', e', ⟨o', _⟩, oa', _⟩ := pushBack_ok (th := th) hg oS os
        rw [e', Option.bind_some] at h
        obtain ⟨ar, ea, oar, _⟩ := pushBackMove_ok (th := th) (t := .lit []) hg trivial o'
        rw [ea, Option.bind_some] at h
        have hk : k ≤ a.length := by
          apply Nat.le_of_not_lt
          intro hk
          exact absurd rfl (hfirst a.length hk x (by rw [e]; simp))
        have hd : x ∈ (text t).drop (k + 1) := by
          obtain ⟨j, hj⟩ := List.getElem?_of_mem hb
          have : ((text t).drop (k + 1))[a.length + 1 + j - (k + 1)]? = some x := by
            rw [List.getElem?_drop, e, show k + 1 + (a.length + 1 + j - (k + 1)) = a.length + (j + 1) by omega,
              List.getElem?_append_right (by omega), Nat.add_sub_cancel_left]
            exact hj
          exact List.mem_of_getElem? this
        rw [replaceLoop_stuck hg zero o d x fuel (k + 1) a' ar oa' oar (by omega) hd] at h
        simp at h
  · intro h
    have hp := replace_char_partial (th := th) hg zero o d os ch hl (fuel := 2) (Nat.le_refl _)
    by_cases hm : ch ∈ text t
    · obtain ⟨a, b, e, ha⟩ := List.eq_append_cons_of_mem hm
      have hb : ch ∉ b := by
        rw [e, List.count_append, List.count_cons_self] at h
        exact List.count_eq_zero.1 (by omega)
      obtain ⟨r, hr, _⟩ := hp.2 a b e ha hb
      exact ⟨2, r, hr⟩
    · obtain ⟨r, hr, _⟩ := hp.1 hm
      exact ⟨2, r, hr⟩

-- a character that "aba" has twice, and one it has once
example : (text (.lit [1, 2, 1] : Text Nat)).count 1 = 2 ∧ (text (.lit [1, 2, 1] : Text Nat)).count 2 = 1 := by decide

/-! ### C69: beginnings and ends -/

omit [Inhabited A] [DecidableEq A] in
theorem prefix_take {w l : List A} (_ : w.length ≤ l.length) : (l.take w.length = w) ↔ w <+: l := by
  rw [List.prefix_iff_eq_take]; exact eq_comm

omit [Inhabited A] [DecidableEq A] in
theorem suffix_drop {w l : List A} (_ : w.length ≤ l.length) :
    (l.drop (l.length - w.length) = w) ↔ w <:+ l := by
  rw [List.suffix_iff_eq_drop]; exact eq_comm

theorem eqV_part {t r : Text A} {b s : Nat} (h : substr hc t b s = some r) (or : Ok hc r)
    (q : OnNode NoInnerErase t) {w behind : List A} (hl : (text r).length = w.length) :
    eqV r w behind = some (decide (text r = w)) := by
  rcases substr_plain h with rfl | ⟨n, rfl, hn, _⟩
  · rw [eqV_short (t := .lit []) trivial]; exact equalN_texts (.inl hl)
  · exact equal_view_correct_partial or (sequential_of_noInner n (hn q)) w

omit [Inhabited A] [DecidableEq A] in
theorem ends_take {t : Text A} {k : Nat} (hl : (text t).length < 2 ^ 64) :
    ((text t).drop k).take (2 ^ 64 - 1) = (text t).drop k := npos_take (by simp; omega)

/-- **C69 (a view).** -/
theorem starts_ends_view_partial {t : Text A} (o : Ok hc t) (q : OnNode NoInnerErase t)
    (w behind : List A) (hl : (text t).length < 2 ^ 64) :
    startsWith hc t w behind = some (decide (w <+: text t)) ∧
    endsWith hc t w behind = some (decide (w <:+ text t)) := by
  unfold startsWith endsWith
  rw [size_text o]
  split
  · rename_i h
    have h1 : ¬ w <+: text t := fun h' => by have := h'.length_le; omega
    have h2 : ¬ w <:+ text t := fun h' => by have := h'.length_le; omega
    simp [h1, h2]
  · rename_i h
    have h : w.length ≤ (text t).length := by omega
    constructor
    · obtain ⟨r, e, or, tr⟩ := substr_ok o w.length (Nat.zero_le (text t).length)
      rw [List.drop_zero] at tr
      rw [e, Option.bind_some, eqV_part e or q (by rw [tr]; simp; omega), tr]
      exact congrArg some (decide_eq_decide.mpr (prefix_take h))
    · obtain ⟨r, e, or, tr⟩ := substr_ok o (2 ^ 64 - 1)
        (show (text t).length - w.length ≤ (text t).length by omega)
      rw [ends_take hl] at tr
      rw [e, Option.bind_some, eqV_part e or q (by rw [tr]; simp; omega), tr]
      exact congrArg some (decide_eq_decide.mpr (suffix_drop h))

theorem eq_part {t r str : Text A} {b s : Nat} (zero : A) (h : substr hc t b s = some r)
    (or : Ok hc r) (os : Ok hc str) (q : OnNode NoInnerErase t) (q' : OnNode NoEmptyRun t)
    (qs : OnNode NoInnerErase str) (hl : (text r).length = (text str).length) :
    (eq zero r str).map (·.1) = some (decide (text r = text str)) := by
  have : EqOk r str := by
    rcases substr_plain h with rfl | ⟨n, rfl, hn, hn'⟩
    · cases str with
      | node m => exact sequential_of_noInner m qs
      | lit l => exact .inl hl
      | chr c => exact .inl hl
    · cases str with
      | node m => exact fun _ => eqReady_of_plain n m (hn q) qs (hn' q')
      | lit l => exact sequential_of_noInner n (hn q)
      | chr c => exact sequential_of_noInner n (hn q)
  obtain ⟨t', a', e, _⟩ := equal_partial zero or os this
  rw [e]; rfl

/-- **C69 (a string).** -/
theorem starts_ends_string_partial (zero : A) {t str : Text A} (o : Ok hc t) (os : Ok hc str)
    (q : OnNode NoInnerErase t) (q' : OnNode NoEmptyRun t) (qs : OnNode NoInnerErase str)
    (hl : (text t).length < 2 ^ 64) :
    startsWithText hc zero t str = some (decide (text str <+: text t)) ∧
    endsWithText hc zero t str = some (decide (text str <:+ text t)) := by
  unfold startsWithText endsWithText
  rw [size_text o, size_text os]
  split
  · rename_i h
    have h1 : ¬ text str <+: text t := fun h' => by have := h'.length_le; omega
    have h2 : ¬ text str <:+ text t := fun h' => by have := h'.length_le; omega
    simp [h1, h2]
  · rename_i h
    have h : (text str).length ≤ (text t).length := by omega
    have main : ((substr hc t 0 (text str).length).bind fun s => (eq zero s str).map (·.1)) =
          some (decide (text str <+: text t)) ∧
        ((substr hc t ((text t).length - (text str).length) (2 ^ 64 - 1)).bind fun s =>
          (eq zero s str).map (·.1)) = some (decide (text str <:+ text t)) := by
      constructor
      · obtain ⟨r, e, or, tr⟩ := substr_ok o (text str).length (Nat.zero_le (text t).length)
        rw [List.drop_zero] at tr
        rw [e, Option.bind_some, eq_part zero e or os q q' qs (by rw [tr]; simp; omega), tr]
        exact congrArg some (decide_eq_decide.mpr (prefix_take h))
      · obtain ⟨r, e, or, tr⟩ := substr_ok o (2 ^ 64 - 1)
          (show (text t).length - (text str).length ≤ (text t).length by omega)
        rw [ends_take hl] at tr
        rw [e, Option.bind_some, eq_part zero e or os q q' qs (by rw [tr]; simp; omega), tr]
        exact congrArg some (decide_eq_decide.mpr (suffix_drop h))
    cases str with
    | lit l => exact main
    | node m => rw [← size_text os] at main; exact main
    | chr c =>
      have h1 : 1 ≤ (text t).length := h
      have hne : text t ≠ [] := by intro h'; rw [h'] at h1; simp at h1
      dsimp only
      rw [if_neg (by omega), if_neg (by omega)]
      rw [(read_correct o).2 0 (by omega), (read_correct o).2 _ (by omega)]
      constructor
      · obtain ⟨x, l, e⟩ := List.exists_cons_of_ne_nil hne
        rw [e]; simp [text, eq_comm]
      · obtain ⟨l, x, e⟩ := List.eq_nil_or_concat (text t) |>.resolve_left hne
        rw [e]
        have : ([c] <:+ l ++ [x]) ↔ x = c := by
          rw [List.suffix_iff_eq_drop]; simp [eq_comm]
        simp [text, this]

/-- **C69 (a repeated character at the end).** The answer is whether the last other character stands
at or before the first of the `count` last characters. -/
theorem ends_with_run_characterised (zero : A) {t : Text A} (o : Ok hc t) (d : OnNode DataOk t)
    (ch : A) (count : Nat) :
    ∃ r, endsWithRun zero t ch count = some r ∧
      (r = true ↔ ∃ k, k + count ≤ (text t).length ∧ IsLast (· ≠ ch) (text t) (some k)) := by
  unfold endsWithRun
  rw [size_text o]
  split
  · rename_i h
    refine ⟨_, rfl, by simp, ?_⟩
    rintro ⟨k, hk, _⟩; omega
  · rename_i h
    rw [view_ok zero o d, Option.map_some]
    refine ⟨_, rfl, ?_⟩
    have hl := (Search.base_finds_correct [ch] (text t)).2.2.2
    have conv : ∀ o, IsLast (fun y => y ∉ [ch]) (text t) o ↔ IsLast (· ≠ ch) (text t) o := by
      intro o; cases o <;> simp [IsLast]
    rw [conv] at hl
    cases hb : Search.baseFindLastNotOf [ch] (text t) with
    | none =>
      rw [hb] at hl
      simp only [Bool.false_eq_true, false_iff]
      rintro ⟨k, _, ⟨x, hx, hne⟩, _⟩
      exact hl x (List.mem_of_getElem? hx) hne
    | some k =>
      rw [hb] at hl
      simp only [decide_eq_true_eq]
      constructor
      · intro hk; exact ⟨k, by omega, hl⟩
      · rintro ⟨k', hk', ⟨x, hx, hne⟩, hlast⟩
        obtain ⟨⟨x', hx', hne'⟩, hlast'⟩ := hl
        rcases Nat.lt_trichotomy k k' with h' | h' | h'
        · exact absurd hne (hlast' k' h' x hx)
        · omega
        · exact absurd hne' (hlast k h' x' hx')

/-- **C69 (a repeated character at the end).** Right when some other character occurs, and its last
occurrence is not exactly the first of the `count` last characters. -/
theorem ends_with_run_partial (zero : A) {t : Text A} (o : Ok hc t) (d : OnNode DataOk t)
    (ch : A) (count k : Nat) (hk : IsLast (· ≠ ch) (text t) (some k))
    (hne : k + count ≠ (text t).length) :
    endsWithRun zero t ch count = some (decide (List.replicate count ch <:+ text t)) := by
  obtain ⟨r, e, hr⟩ := ends_with_run_characterised zero o d ch count
  rw [e]
  congr 1
  rw [Bool.eq_iff_iff, hr, decide_eq_true_eq]
  have hkl : k < (text t).length := by
    obtain ⟨⟨x, hx, _⟩, _⟩ := hk
    exact (List.getElem?_eq_some_iff.mp hx).1
  constructor
  · rintro ⟨k', hk', ⟨x, hx, hxn⟩, hlast⟩
    have hkk : k' = k := by
      obtain ⟨⟨x', hx', hne'⟩, hlast'⟩ := hk
      rcases Nat.lt_trichotomy k k' with h' | h' | h'
      · exact absurd hxn (hlast' k' h' x hx)
      · exact h'.symm
      · exact absurd hne' (hlast k h' x' hx')
    subst hkk
    rw [List.suffix_iff_eq_drop, List.length_replicate]
    refine List.ext_getElem? fun i => ?_
    rw [List.getElem?_drop, List.getElem?_replicate]
    split
    · have hi : (text t).length - count + i < (text t).length := by omega
      rw [List.getElem?_eq_getElem hi]
      have := hlast _ (show (text t).length - count + i > k' by omega) _ (List.getElem?_eq_getElem hi)
      simp only [ne_eq, Decidable.not_not] at this
      rw [this]
    · rw [List.getElem?_eq_none (by omega)]
  · intro hs
    refine ⟨k, ?_, hk⟩
    have hle := hs.length_le
    rw [List.length_replicate] at hle
    by_contra hgt
    rw [List.suffix_iff_eq_drop, List.length_replicate] at hs
    obtain ⟨⟨x, hx, hxn⟩, _⟩ := hk
    have : (List.replicate count ch)[k - ((text t).length - count)]? = some x := by
      rw [hs, List.getElem?_drop, show (text t).length - count + (k - ((text t).length - count)) = k by omega, hx]
    exact hxn (List.eq_of_mem_replicate (List.mem_of_getElem? this))

/-! ### C71: splitting -/

theorem splitLoop_ok (zero : A) {t : Text A} (o : Ok hc t) (d : OnNode DataOk t) (c : A) {k : Nat}
    (hk : Search.inRange c (text t) = some k) (hd : Search.inRange c ((text t).drop k) = some 0)
    (hkl : k ≤ (text t).length) : ∀ i,
    splitLoop zero t c i k 0 = some (if i % 2 = 0 then (k, 0) else (0, k)) ∧
    splitLoop zero t c i 0 k = some (if i % 2 = 0 then (0, k) else (k, 0)) := by
  intro i
  induction i with
  | zero => exact ⟨rfl, rfl⟩
  | succ i ih =>
    have h1 : (i + 1) % 2 = 0 ↔ ¬ i % 2 = 0 := by omega
    constructor
    · rw [splitLoop, findFrom_ok zero o d c (Nat.zero_le _), List.drop_zero, hk, Option.bind_some]
      rw [show (some k : Option Nat).getD (2 ^ 64 - 1) = k from rfl, ih.2]
      by_cases h : i % 2 = 0 <;> simp [h, h1]
    · rw [splitLoop, findFrom_ok zero o d c hkl, hd, Option.bind_some]
      rw [show (some 0 : Option Nat).getD (2 ^ 64 - 1) = 0 from rfl, ih.1]
      by_cases h : i % 2 = 0 <;> simp [h, h1]

/-- **C71 (the part with an index between delimiters).** In fact an even index gives everything from
the first delimiter on, an odd index everything before it; a string without the delimiter is read
out of bounds; one that begins with it always gives nothing. -/
theorem split_characterised (zero : A) {t : Text A} (o : Ok hc t) (d : OnNode DataOk t) (c : A)
    (i : Nat) (hl : (text t).length < 2 ^ 64 - 1) :
    (∀ a b, text t = a ++ c :: b → c ∉ a → ∃ r, split hc zero t i c = some r ∧ Ok hc r ∧
      text r = if a = [] then [] else if i % 2 = 0 then c :: b else a) ∧
    (c ∉ text t → split hc zero t i c = none) := by
  have hf : find zero t c = some (Search.inRange c (text t)) := by
    obtain ⟨⟨r, e, h⟩, _⟩ := find_partial zero o d c
    have h' := (Search.in_range_correct c (text t)).1
    rw [e]
    congr 1
    cases r with
    | none =>
      cases hi : Search.inRange c (text t) with
      | none => rfl
      | some k =>
        rw [hi] at h'
        obtain ⟨⟨x, hx, hxc⟩, _⟩ := h'
        exact absurd hxc (h x (List.mem_of_getElem? hx))
    | some k =>
      obtain ⟨⟨x, hx, hxc⟩, hmin⟩ := h
      cases hi : Search.inRange c (text t) with
      | none => rw [hi] at h'; exact absurd hxc (h' x (List.mem_of_getElem? hx))
      | some k' =>
        rw [hi] at h'
        obtain ⟨⟨x', hx', hxc'⟩, hmin'⟩ := h'
        rcases Nat.lt_trichotomy k k' with h' | h' | h'
        · exact absurd hxc (hmin' k h' x hx)
        · rw [h']
        · exact absurd hxc' (hmin k' h' x' hx')
  have first : ∀ a b : List A, c ∉ a → Search.inRange c (a ++ c :: b) = some a.length := by
    intro a b ha
    have h' := (Search.in_range_correct c (a ++ c :: b)).1
    cases hi : Search.inRange c (a ++ c :: b) with
    | none => rw [hi] at h'; exact absurd rfl (h' c (by simp))
    | some k =>
      rw [hi] at h'
      obtain ⟨⟨x, h1, rfl⟩, h2⟩ := h'
      rcases Nat.lt_trichotomy k a.length with h | h | h
      · rw [List.getElem?_append_left h] at h1
        exact absurd (List.mem_of_getElem? h1) ha
      · rw [h]
      · exact absurd rfl (h2 a.length h x (by simp))
  constructor
  · intro a b e ha
    have hk : Search.inRange c (text t) = some a.length := by rw [e]; exact first a b ha
    have hd : Search.inRange c ((text t).drop a.length) = some 0 := by
      rw [e, List.drop_left]; exact first [] b (by simp)
    have hkl : a.length < (text t).length := by rw [e]; simp
    unfold split
    rw [hf, Option.bind_some, hk]
    dsimp only [Option.getD_some]
    rw [findFrom_ok zero o d c (by omega), hd, Option.bind_some]
    dsimp only [Option.getD_some]
    rw [(splitLoop_ok zero o d c hk hd (by omega) i).1, Option.bind_some]
    by_cases hi : i % 2 = 0
    · simp only [hi, if_true]
      obtain ⟨r, er, or, tr⟩ := substr_ok o (wsub 0 a.length) (show a.length ≤ (text t).length by omega)
      refine ⟨r, er, or, ?_⟩
      rw [tr]
      split
      · rename_i h0; rw [h0]; simp [wsub]
      · rename_i h0
        have : 0 < a.length := List.length_pos_iff.mpr h0
        rw [wsub, if_neg (by omega), List.take_of_length_le (by rw [List.length_drop]; omega), e,
          List.drop_left]
    · simp only [hi, if_false]
      obtain ⟨r, er, or, tr⟩ := substr_ok o (wsub a.length 0) (Nat.zero_le (text t).length)
      refine ⟨r, er, or, ?_⟩
      rw [tr, wsub_eq (Nat.zero_le _), List.drop_zero, Nat.sub_zero, e, List.take_left]
      split
      · assumption
      · rfl
  · intro h
    have hk : Search.inRange c (text t) = none := by
      have h' := (Search.in_range_correct c (text t)).1
      cases hi : Search.inRange c (text t) with
      | none => rfl
      | some k =>
        rw [hi] at h'
        obtain ⟨⟨x, hx, rfl⟩, _⟩ := h'
        exact absurd (List.mem_of_getElem? hx) h
    unfold split
    rw [hf, Option.bind_some, hk]
    dsimp only [Option.getD_none]
    rw [findFrom, view_ok zero o d, Option.bind_some, viewFrom, if_neg (by omega)]
    rfl

end

end ELC.Text
