import Verif.Search.Props
import Verif.View.Spec

/-! Properties C108–C111: views and literals. -/
namespace ELC.View
open Spec

theorem text_length {mem : List Nat} {v : View} (h : Inside mem v) : (text mem v).length = v.size := by
  have := h.1
  rw [text, List.length_take, List.length_drop]; omega

theorem text_getElem? {mem : List Nat} {v : View} {i : Nat} (h : i < v.size) :
    (text mem v)[i]? = mem[v.begin + i]? := by
  rw [text, List.getElem?_take_of_lt h, List.getElem?_drop]

theorem forward_eq (mem : List Nat) (n : Nat) : ∀ p, p + n ≤ mem.length →
    forward mem p n = some ((mem.drop p).take n) := by
  induction n with
  | zero => intro p _; rfl
  | succ n ih =>
    intro p h
    have hp : p < mem.length := by omega
    rw [forward, List.getElem?_eq_getElem hp, ih (p + 1) (by omega), List.drop_eq_getElem_cons hp,
      List.take_succ_cons]
    rfl

/-! ### C108 -/

/-- C108: going through a view from its beginning gives its elements in order. -/
theorem view_forward (mem : List Nat) (v : View) (h : Inside mem v) :
    forward mem v.begin v.size = some (text mem v) := forward_eq mem v.size v.begin h.1

theorem backward_eq (mem : List Nat) (b : Nat) (n : Nat) : ∀ k, n ≤ k → b + n ≤ mem.length →
    backward mem ((b : Int) - 1) ((b : Int) + n - 1) k = some ((mem.drop b).take n).reverse := by
  induction n with
  | zero =>
    intro k _ _
    cases k <;> simp [backward]
  | succ n ih =>
    intro k hk hb
    obtain ⟨k', rfl⟩ : ∃ k', k = k' + 1 := ⟨k - 1, by omega⟩
    have e1 : (b : Int) + (n + 1 : Nat) - 1 = ((b + n : Nat) : Int) := by omega
    rw [e1, backward, if_neg (by omega), if_neg (by omega), Int.toNat_natCast,
      List.getElem?_eq_getElem (by omega)]
    have e2 : ((b + n : Nat) : Int) - 1 = (b : Int) + n - 1 := by omega
    rw [e2, ih k' (by omega) (by omega), List.take_add_one, List.getElem?_drop,
      List.getElem?_eq_getElem (by omega)]
    simp

/-- C108: going through a view from its end gives its elements in the opposite order. -/
theorem view_backward (mem : List Nat) (v : View) (h : Inside mem v) :
    backwardAll mem v = some (text mem v).reverse := by
  have := h.1
  exact backward_eq mem v.begin v.size _ (by omega) h.1

/-- C108: the elements of a view by their index, the first and the last. -/
theorem view_elements (mem : List Nat) (v : View) (h : Inside mem v) :
    (∀ i, i < v.size → at? mem v i = (text mem v)[i]? ∧ (at? mem v i).isSome) ∧
    (0 < v.size → front mem v = (text mem v).head? ∧ back mem v = (text mem v).getLast?) := by
  constructor
  · intro i hi
    have := h.1
    refine ⟨(text_getElem? hi).symm, ?_⟩
    rw [at?, List.getElem?_eq_getElem (by omega)]
    rfl
  · intro hs
    have h2 := h.2
    have e : word v.size 1 = v.size - 1 := by
      unfold word
      rw [show v.size + 2 ^ 64 - 1 = v.size - 1 + 2 ^ 64 by omega, Nat.add_mod_right,
        Nat.mod_eq_of_lt (by omega)]
    refine ⟨?_, ?_⟩
    · rw [front, List.head?_eq_getElem?, text_getElem? hs]; rfl
    · rw [back, e, List.getLast?_eq_getElem?, text_length h, text_getElem? (by omega)]

example : Inside [1, 2, 3, 4] ⟨1, 2⟩ ∧ text [1, 2, 3, 4] ⟨1, 2⟩ = [2, 3] := by
  refine ⟨⟨by decide, by decide⟩, rfl⟩

/-- C108: a part of a view, whatever the bounds, lies in the view and has the elements from the first
bound up to the second, or the end. -/
theorem view_subview (mem : List Nat) (v : View) (h : Inside mem v) (pos e : Nat) :
    (Inside mem (subview v pos e) ∧ text mem (subview v pos e) = ((text mem v).take e).drop pos ∧
      v.begin ≤ (subview v pos e).begin ∧
      (subview v pos e).begin + (subview v pos e).size ≤ v.begin + v.size) ∧
    (Inside mem (subviewFrom v pos) ∧ text mem (subviewFrom v pos) = (text mem v).drop pos ∧
      v.begin ≤ (subviewFrom v pos).begin ∧
      (subviewFrom v pos).begin + (subviewFrom v pos).size = v.begin + v.size) := by
  obtain ⟨h1, h2⟩ := h
  have key : ∀ a b, a ≤ b → b ≤ v.size →
      text mem ⟨v.begin + a, b - a⟩ = ((text mem v).take b).drop a := by
    intro a b hab hb
    unfold text
    rw [List.take_take, Nat.min_eq_left hb, List.drop_take, List.drop_drop]
  constructor
  · by_cases he : e > v.size
    · by_cases hp : pos > v.size
      · have e1 : subview v pos e = ⟨v.begin + v.size, v.size - v.size⟩ := by
          simp [subview, if_pos he, if_pos hp]
        rw [e1]
        refine ⟨⟨by simp; omega, by simp⟩, ?_, by simp, by simp⟩
        rw [key _ _ (Nat.le_refl _) (Nat.le_refl _), List.drop_of_length_le, List.drop_of_length_le]
        · rw [List.length_take, text, List.length_take]; omega
        · rw [List.length_take, text, List.length_take]; omega
      · have e1 : subview v pos e = ⟨v.begin + pos, v.size - pos⟩ := by
          simp only [subview, if_pos he, if_neg hp]
        rw [e1]
        refine ⟨⟨by simp; omega, by simp; omega⟩, ?_, by simp, by simp; omega⟩
        rw [key _ _ (by omega) (Nat.le_refl _), List.take_of_length_le (by rw [text, List.length_take]; omega),
          List.take_of_length_le (by rw [text, List.length_take]; omega)]
    · by_cases hp : pos > e
      · have e1 : subview v pos e = ⟨v.begin + e, e - e⟩ := by
          simp only [subview, if_neg he, if_pos hp]
        rw [e1]
        refine ⟨⟨by simp; omega, by simp⟩, ?_, by simp, by simp; omega⟩
        rw [key _ _ (Nat.le_refl _) (by omega), List.drop_of_length_le, List.drop_of_length_le]
        · rw [List.length_take]; omega
        · rw [List.length_take]; omega
      · have e1 : subview v pos e = ⟨v.begin + pos, e - pos⟩ := by
          simp only [subview, if_neg he, if_neg hp]
        rw [e1]
        refine ⟨⟨by simp; omega, by simp; omega⟩, key _ _ (by omega) (by omega), by simp, by simp; omega⟩
  · by_cases hp : pos > v.size
    · have e1 : subviewFrom v pos = ⟨v.begin + v.size, v.size - v.size⟩ := by
        simp only [subviewFrom, if_pos hp]
      rw [e1]
      refine ⟨⟨by simp; omega, by simp⟩, ?_, by simp, by simp⟩
      rw [key _ _ (Nat.le_refl _) (Nat.le_refl _), List.drop_of_length_le, List.drop_of_length_le]
      · rw [text, List.length_take]; omega
      · rw [List.length_take, text, List.length_take]; omega
    · have e1 : subviewFrom v pos = ⟨v.begin + pos, v.size - pos⟩ := by
        simp only [subviewFrom, if_neg hp]
      rw [e1]
      refine ⟨⟨by simp; omega, by simp; omega⟩, ?_, by simp, by simp; omega⟩
      rw [key _ _ (by omega) (Nat.le_refl _), List.take_of_length_le (by rw [text, List.length_take]; omega)]

example : subview ⟨1, 3⟩ 2 100 = ⟨3, 1⟩ ∧ subview ⟨1, 3⟩ 7 2 = ⟨3, 0⟩ := by decide

/-! ### C109 -/

theorem word_eq {a b : Nat} (h : b ≤ a) (ha : a - b < 2 ^ 64) : word a b = a - b := by
  unfold word
  rw [show a + 2 ^ 64 - b = a - b + 2 ^ 64 by omega, Nat.add_mod_right, Nat.mod_eq_of_lt ha]

/-- C109, what does hold: with bounds in the string each way to give them leads to the part that
lies between them. -/
theorem substr_partial (mem : List Nat) (v : View) (h : Inside mem v) (pos len : Nat)
    (hl : pos + len ≤ v.size) :
    (Inside mem (substr v pos len) ∧ text mem (substr v pos len) = ((text mem v).drop pos).take len) ∧
    (Inside mem (substrFrom v pos) ∧ text mem (substrFrom v pos) = (text mem v).drop pos) ∧
    (Inside mem (substrAt v (v.begin + pos) len) ∧
      text mem (substrAt v (v.begin + pos) len) = ((text mem v).drop pos).take len) ∧
    (Inside mem (substrAtFrom v (v.begin + pos)) ∧
      text mem (substrAtFrom v (v.begin + pos)) = (text mem v).drop pos) ∧
    (Inside mem (substrBetween v (v.begin + pos) (v.begin + pos + len)) ∧
      text mem (substrBetween v (v.begin + pos) (v.begin + pos + len)) =
        ((text mem v).drop pos).take len) := by
  obtain ⟨h1, h2⟩ := h
  have e1 : substrFrom v pos = ⟨v.begin + pos, v.size - pos⟩ := by
    rw [substrFrom, word_eq (by omega) (by omega)]
  have e2 : substrAtFrom v (v.begin + pos) = ⟨v.begin + pos, v.size - pos⟩ := by
    rw [substrAtFrom, word_eq (by omega) (by omega)]
    congr 1; omega
  have e3 : substrBetween v (v.begin + pos) (v.begin + pos + len) = ⟨v.begin + pos, len⟩ := by
    rw [substrBetween, word_eq (by omega) (by omega)]
    congr 1; omega
  have k1 : Inside mem ⟨v.begin + pos, len⟩ := ⟨by simp; omega, by simp; omega⟩
  have k2 : Inside mem ⟨v.begin + pos, v.size - pos⟩ := ⟨by simp; omega, by simp; omega⟩
  have t1 : text mem ⟨v.begin + pos, len⟩ = ((text mem v).drop pos).take len := by
    unfold text
    rw [List.drop_take, List.drop_drop, List.take_take, Nat.min_eq_left (by omega)]
  have t2 : text mem ⟨v.begin + pos, v.size - pos⟩ = (text mem v).drop pos := by
    unfold text
    rw [List.drop_take, List.drop_drop]
  rw [e1, e2, e3]
  exact ⟨⟨k1, t1⟩, ⟨k2, t2⟩, ⟨k1, t1⟩, ⟨k2, t2⟩, ⟨k1, t1⟩⟩

example : substr ⟨1, 3⟩ 1 2 = ⟨2, 2⟩ := rfl

/-- C109 is false: with a position and a pointer to the end, the part is too long by the position; in
a string that takes all of its block it cannot be read. -/
theorem substr_end_refuted :
    Inside [1, 2, 3] ⟨0, 3⟩ ∧ substrTo ⟨0, 3⟩ 1 3 = ⟨1, 3⟩ ∧
    forward [1, 2, 3] (substrTo ⟨0, 3⟩ 1 3).begin (substrTo ⟨0, 3⟩ 1 3).size = none := by
  refine ⟨⟨by decide, by decide⟩, by decide, by decide⟩

/-- C109, exactly: with a position and a pointer to the end the part is right if and only if the
position is zero; otherwise it is too long by the position. -/
theorem substr_end_characterised (mem : List Nat) (v : View) (h : Inside mem v) (pos e : Nat)
    (hp : pos ≤ e) (he : e ≤ v.size) :
    substrTo v pos (v.begin + e) = ⟨v.begin + pos, e⟩ ∧
    (substrTo v pos (v.begin + e) = substr v pos (e - pos) ↔ pos = 0 ∨ e = 0) := by
  have h2 := h.2
  have e1 : substrTo v pos (v.begin + e) = ⟨v.begin + pos, e⟩ := by
    rw [substrTo, word_eq (by omega) (by omega)]
    congr 1; omega
  refine ⟨e1, ?_⟩
  rw [e1, substr]
  simp only [View.mk.injEq, true_and]
  omega

/-- C109 is false: from a position behind the end, `substr` goes on for almost the whole address
space. -/
theorem substr_beyond_refuted (mem : List Nat) (v : View) (h : Inside mem v) (pos : Nat)
    (hp : v.size < pos) (hb : pos < 2 ^ 64) :
    (substrFrom v pos).size = 2 ^ 64 - (pos - v.size) := by
  have h2 := h.2
  unfold substrFrom word
  simp only
  rw [Nat.mod_eq_of_lt (by omega)]
  omega

example : (substrFrom ⟨0, 3⟩ 4).size = 2 ^ 64 - 1 := by decide

/-! ### C110 -/

/-- C110: `starts_with` of a character. -/
theorem starts_with_char (mem : List Nat) (v : View) (h : Inside mem v) (ch : Nat) :
    startsWithChar mem v ch = some (decide ([ch] <+: text mem v)) := by
  unfold startsWithChar
  by_cases hs : v.size = 0
  · rw [if_pos hs]
    have : text mem v = [] := List.length_eq_zero_iff.1 (by rw [text_length h, hs])
    rw [this]
    simp
  · rw [if_neg hs]
    have h1 := h.1
    have hb : v.begin < mem.length := by omega
    obtain ⟨n, hn⟩ : ∃ n, v.size = n + 1 := ⟨v.size - 1, by omega⟩
    have e : text mem v = mem[v.begin] :: (mem.drop (v.begin + 1)).take n := by
      rw [text, List.drop_eq_getElem_cons hb, hn, List.take_succ_cons]
    rw [List.getElem?_eq_getElem hb, e]
    show some (mem[v.begin] == ch) = _
    congr 1
    rw [Bool.eq_iff_iff, beq_iff_eq, decide_eq_true_eq]
    simp only [List.cons_prefix_cons, List.nil_prefix, and_true]
    exact ⟨Eq.symm, Eq.symm⟩

theorem equalN_prefix (a b : List Nat) (n : Nat) : ∀ a b : List Nat, n ≤ a.length → n ≤ b.length →
    Compare.equalN n a b = some (decide (a.take n = b.take n)) := by
  induction n with
  | zero => intro a b _ _; simp [Compare.equalN]
  | succ n ih =>
    intro a b ha hb
    match a, b, ha, hb with
    | x :: a, y :: b, ha, hb =>
      rw [Compare.equalN]
      by_cases hxy : x = y
      · subst hxy
        rw [if_neg (by simp), ih a b (by simpa using ha) (by simpa using hb)]
        simp
      · rw [if_pos hxy]
        simp [hxy]

/-- C110: `starts_with` of another view; what is compared is in the views. -/
theorem starts_with_view (mem : List Nat) (v s : View) (hv : Inside mem v) (hs : Inside mem s) :
    startsWithView mem v s = some (decide (text mem s <+: text mem v)) := by
  unfold startsWithView
  have h1 := hv.1
  have h2 := hs.1
  by_cases hl : s.size > v.size
  · rw [if_pos hl]
    have : ¬ text mem s <+: text mem v := by
      intro hp
      have := hp.length_le
      rw [text_length hv, text_length hs] at this
      omega
    rw [decide_eq_false this]
  · rw [if_neg hl, equalN_prefix [] [] _ _ _ (by rw [List.length_drop]; omega)
      (by rw [List.length_drop]; omega)]
    congr 1
    rw [decide_eq_decide, List.prefix_iff_eq_take, text_length hs]
    have e : (text mem v).take s.size = (mem.drop v.begin).take s.size := by
      rw [text, List.take_take, Nat.min_eq_left (by omega)]
    rw [e]
    exact ⟨fun h => h.symm, fun h => h.symm⟩

example : startsWithView [1, 2, 3, 1, 2] ⟨0, 3⟩ ⟨3, 2⟩ = some true := by decide

theorem zeroEnded_get {mem : List Nat} {p : Nat} {s : List Nat} (h : ZeroEnded mem p s) :
    (∀ i, i < s.length → mem[p + i]? = s[i]?) ∧ mem[p + s.length]? = some 0 := by
  obtain ⟨-, rest, hr⟩ := h
  constructor
  · intro i hi
    rw [← List.getElem?_drop, hr, List.getElem?_append_left hi]
  · rw [← List.getElem?_drop, hr, List.getElem?_append_right (Nat.le_refl _)]
    simp

theorem startsWithZero_from (mem : List Nat) (v : View) (str : Nat) (s : List Nat) (hv : Inside mem v)
    (hs : ZeroEnded mem str s) (n : Nat) : ∀ i, v.size - i ≤ n → i ≤ v.size → i ≤ s.length →
    startsWithZero mem v str i = some (decide (s.drop i <+: (text mem v).drop i)) := by
  obtain ⟨g1, g2⟩ := zeroEnded_get hs
  have hz : ∀ i (hi : i < s.length), s[i] ≠ 0 := fun i hi e => hs.1 (e ▸ List.getElem_mem hi)
  have hvl := text_length hv
  have hv1 := hv.1
  induction n with
  | zero =>
    intro i h1 h2 h3
    have hi : i = v.size := by omega
    rw [startsWithZero, if_neg (by omega)]
    by_cases hl : i = s.length
    · rw [hl, g2]
      have : s.drop s.length = [] := List.drop_of_length_le (Nat.le_refl _)
      rw [this]
      simp
    · have hlt : i < s.length := by omega
      rw [g1 i hlt, List.getElem?_eq_getElem hlt]
      have e : (text mem v).drop i = [] := List.drop_of_length_le (by omega)
      rw [e, List.drop_eq_getElem_cons hlt]
      have hb : (s[i] == 0) = false := by simpa using hz i hlt
      have hd : decide (s.length ≤ i) = false := decide_eq_false (by omega)
      simp [hb, hd]
  | succ n ih =>
    intro i h1 h2 h3
    by_cases hi : i < v.size
    · rw [startsWithZero, if_pos hi]
      by_cases hl : i = s.length
      · rw [hl, g2]
        have : s.drop s.length = [] := List.drop_of_length_le (Nat.le_refl _)
        rw [this]
        simp
      · have hlt : i < s.length := by omega
        have hb : v.begin + i < mem.length := by omega
        have ht : i < (text mem v).length := by omega
        have hx : (text mem v)[i] = mem[v.begin + i] := by
          have := text_getElem? (mem := mem) hi
          rw [List.getElem?_eq_getElem ht, List.getElem?_eq_getElem hb] at this
          exact Option.some.inj this
        rw [g1 i hlt, List.getElem?_eq_getElem hlt, List.getElem?_eq_getElem hb]
        show (if s[i] ≠ 0 then (if mem[v.begin + i] ≠ s[i] then some false else
          startsWithZero mem v str (i + 1)) else some true) = _
        rw [if_pos (hz i hlt), List.drop_eq_getElem_cons hlt, List.drop_eq_getElem_cons ht, hx]
        by_cases he : mem[v.begin + i] = s[i]
        · rw [if_neg (by simp [he]), ih (i + 1) (by omega) (by omega) (by omega)]
          congr 1
          rw [decide_eq_decide, List.cons_prefix_cons]
          simp [he]
        · rw [if_pos he]
          congr 1
          symm
          rw [decide_eq_false_iff_not, List.cons_prefix_cons]
          exact fun hc => he hc.1.symm
    · exact (by
        have hi' : i = v.size := by omega
        rw [startsWithZero, if_neg hi]
        by_cases hl : i = s.length
        · rw [hl, g2]
          have : s.drop s.length = [] := List.drop_of_length_le (Nat.le_refl _)
          rw [this]
          simp
        · have hlt : i < s.length := by omega
          rw [g1 i hlt, List.getElem?_eq_getElem hlt]
          have e : (text mem v).drop i = [] := List.drop_of_length_le (by omega)
          rw [e, List.drop_eq_getElem_cons hlt]
          have hb : (s[i] == 0) = false := by simpa using hz i hlt
          have hd : decide (s.length ≤ i) = false := decide_eq_false (by omega)
          simp [hb, hd])

/-- C110: `starts_with` of an array that ends with zero; nothing behind its zero is read. -/
theorem starts_with_zero (mem : List Nat) (v : View) (str : Nat) (s : List Nat) (hv : Inside mem v)
    (hs : ZeroEnded mem str s) :
    startsWithZero mem v str 0 = some (decide (s <+: text mem v)) := by
  have := startsWithZero_from mem v str s hv hs v.size 0 (by omega) (by omega) (by omega)
  simpa using this

example : ZeroEnded [5, 6, 5, 0] 2 [5] := ⟨by decide, [], rfl⟩

/-- C110: the length of an array that ends with zero. -/
theorem length_of_zero (mem : List Nat) (s : List Nat) : ∀ p n, ZeroEnded mem p s → s.length < n →
    lengthOf mem p n = some s.length := by
  induction s with
  | nil =>
    intro p n h hn
    obtain ⟨n', rfl⟩ : ∃ n', n = n' + 1 := ⟨n - 1, by simp at hn; omega⟩
    have := (zeroEnded_get h).2
    simp only [List.length_nil, Nat.add_zero] at this
    rw [lengthOf, this]
    rfl
  | cons c s ih =>
    intro p n h hn
    obtain ⟨n', rfl⟩ : ∃ n', n = n' + 1 := ⟨n - 1, by simp at hn; omega⟩
    have h0 := (zeroEnded_get h).1 0 (by simp)
    simp only [Nat.add_zero, List.getElem?_cons_zero] at h0
    have hc : c ≠ 0 := fun e => h.1 (by simp [e])
    have h' : ZeroEnded mem (p + 1) s := by
      refine ⟨fun hm => h.1 (List.mem_cons_of_mem _ hm), ?_⟩
      obtain ⟨-, rest, hr⟩ := h
      refine ⟨rest, ?_⟩
      rw [← List.drop_drop, hr]
      rfl
    rw [lengthOf, h0]
    show (if c ≠ 0 then (do return (← lengthOf mem (p + 1) n') + 1) else some 0) = _
    rw [if_pos hc, ih (p + 1) n' h' (by simpa using hn)]
    rfl

/-! ### C111 -/

/-- C111: looking for a character in a literal gives its first place, or its last when looking from the
end, whether or not a table could be made for the literal. -/
theorem literal_in_range {w : Nat} (hw : w < 64) {p : List Nat} (hp : ∀ c ∈ p, c < 2 ^ w) (x : Nat)
    (hx : x < 2 ^ w) :
    Search.Spec.IsFirst (fun y => y = x) p ((Literal.make w p).inRange w x) ∧
    Search.Spec.IsLast (fun y => y = x) p ((Literal.make w p).inRangeReverse w x) := by
  have hplain := Search.in_range_correct x p
  obtain ⟨hex, htab⟩ := Search.quick_unindex_partial hw hp
  cases hu : (Literal.make w p).unindex with
  | none =>
    have e1 : (Literal.make w p).inRange w x = Search.inRange x p := by
      rw [Literal.inRange, hu]; rfl
    have e2 : (Literal.make w p).inRangeReverse w x = Search.inRangeReverse x p := by
      rw [Literal.inRangeReverse, hu]; rfl
    rw [e1, e2]
    exact hplain
  | some t =>
    have e1 : (Literal.make w p).inRange w x = Search.unindex (Search.isWide w) t x := by
      rw [Literal.inRange, hu]
    have e2 : (Literal.make w p).inRangeReverse w x = Search.unindex (Search.isWide w) t x := by
      rw [Literal.inRangeReverse, hu]
    have hm : Search.unindexMark (Search.isWide w) 0 p (fun _ => none) = some t := by
      have hu' : (if (Search.mark (Search.isWide w) p (fun _ => false)).isSome then
        Search.unindexMark (Search.isWide w) 0 p (fun _ => none) else none) = some t := hu
      by_cases hf : (Search.mark (Search.isWide w) p (fun _ => false)).isSome
      · rwa [if_pos hf] at hu'
      · rw [if_neg hf] at hu'; cases hu'
    obtain ⟨h1, h2⟩ := htab t hm x hx
    have hnd : p.Nodup := (hex.1 ⟨t, hm⟩).1
    rw [e1, e2]
    cases hr : Search.unindex (Search.isWide w) t x with
    | none =>
      have := h2.1 hr
      exact ⟨fun y hy e => this (e ▸ hy), fun y hy e => this (e ▸ hy)⟩
    | some k =>
      have hk := (h1 k).1 hr
      have huniq : ∀ j y, p[j]? = some y → y = x → j = k := by
        intro j y hj hy
        subst hy
        obtain ⟨hjl, hj⟩ := List.getElem?_eq_some_iff.1 hj
        obtain ⟨hkl, hk⟩ := List.getElem?_eq_some_iff.1 hk
        exact (List.Nodup.getElem_inj_iff hnd (hi := hjl) (hj := hkl)).1 (by rw [hj, hk])
      refine ⟨⟨⟨x, hk, rfl⟩, ?_⟩, ⟨⟨x, hk, rfl⟩, ?_⟩⟩
      · intro j hj y hy e
        have := huniq j y hy e; omega
      · intro j hj y hy e
        have := huniq j y hy e; omega

example : (Literal.make 32 [48, 49, 50]).inRange 32 49 = some 1 ∧
    (Literal.make 32 [48, 49, 48]).inRangeReverse 32 48 = some 2 ∧
    (Literal.make 32 [0x4e2d, 48]).inRange 32 48 = some 1 := by decide +kernel

/-- C111: looking for any of the characters of a literal gives what looking for them in a string with
the same text gives, for every literal and every range, of every type. -/
theorem literal_finds (w : Nat) (p r : List Nat) :
    (Literal.make w p).findFirstOf w r = Search.findFirstOf (Search.isWide w) p r ∧
    (Literal.make w p).findLastOf w r = Search.findLastOf (Search.isWide w) p r ∧
    (Literal.make w p).findFirstNotOf w r = Search.findFirstNotOf (Search.isWide w) p r ∧
    (Literal.make w p).findLastNotOf w r = Search.findLastNotOf (Search.isWide w) p r := by
  have e : (Literal.make w p).finds = Search.mark (Search.isWide w) p (fun _ => false) := rfl
  have et : (Literal.make w p).text = p := rfl
  cases h : Search.mark (Search.isWide w) p (fun _ => false) with
  | none =>
    refine ⟨?_, ?_, ?_, ?_⟩
    · rw [Literal.findFirstOf, e, h, et]
    · rw [Literal.findLastOf, e, h, et]
    · rw [Literal.findFirstNotOf, e, h, et]
    · rw [Literal.findLastNotOf, e, h, et]
  | some t =>
    refine ⟨?_, ?_, ?_, ?_⟩
    · simp only [Literal.findFirstOf, Search.findFirstOf, e, h]
    · simp only [Literal.findLastOf, Search.findLastOf, e, h]
    · simp only [Literal.findFirstNotOf, Search.findFirstNotOf, e, h]
    · simp only [Literal.findLastNotOf, Search.findLastNotOf, e, h]

/-- C111, what happens with types of 64 bits: if the characters of the literal differ in their lowest bytes, the character with the
same lowest byte is found, be it the one looked for or not; otherwise looking is right. -/
theorem literal_in_range_characterised {w : Nat} (hw : 64 ≤ w) (p : List Nat) (x : Nat) :
    ((p.map (· % 256)).Nodup → Search.Spec.IsFirst (fun y => y % 256 = x % 256) p ((Literal.make w p).inRange w x) ∧
      (Literal.make w p).inRangeReverse w x = (Literal.make w p).inRange w x) ∧
    (¬ (p.map (· % 256)).Nodup → Search.Spec.IsFirst (fun y => y = x) p ((Literal.make w p).inRange w x) ∧
      Search.Spec.IsLast (fun y => y = x) p ((Literal.make w p).inRangeReverse w x)) := by
  obtain ⟨hex, htab⟩ := Search.quick_unindex_characterised hw p
  have hmark : ∀ (q : List Nat) (t : Nat → Bool), (Search.mark (Search.isWide w) q t).isSome := by
    rw [Search.isWide_sixtyFour hw]
    intro q
    induction q with
    | nil => intro t; rfl
    | cons c cs ih => intro t; rw [Search.mark]; exact ih _
  have hu : (Literal.make w p).unindex = Search.unindexMark (Search.isWide w) 0 p (fun _ => none) := if_pos (hmark p _)
  constructor
  · intro hd
    obtain ⟨t, ht⟩ := hex.2 hd
    have e1 : (Literal.make w p).inRange w x = Search.unindex (Search.isWide w) t x := by rw [Literal.inRange, hu, ht]
    have e2 : (Literal.make w p).inRangeReverse w x = Search.unindex (Search.isWide w) t x := by rw [Literal.inRangeReverse, hu, ht]
    rw [e1, e2]
    refine ⟨?_, rfl⟩
    obtain ⟨h1, h2⟩ := htab t ht x
    cases hr : Search.unindex (Search.isWide w) t x with
    | none => exact h2.1 hr
    | some k =>
      obtain ⟨d, hk, he⟩ := (h1 k).1 hr
      refine ⟨⟨d, hk, he⟩, ?_⟩
      intro j hj y hy e
      have hj' := (h1 j).2 ⟨y, hy, e⟩
      rw [hr] at hj'
      injection hj' with hj'
      omega
  · intro hd
    have hn : (Literal.make w p).unindex = none := by
      rw [hu]
      cases h : Search.unindexMark (Search.isWide w) 0 p (fun _ => none) with
      | none => rfl
      | some t => exact absurd (hex.1 ⟨t, h⟩) hd
    have e1 : (Literal.make w p).inRange w x = Search.inRange x p := by rw [Literal.inRange, hn]; rfl
    have e2 : (Literal.make w p).inRangeReverse w x = Search.inRangeReverse x p := by rw [Literal.inRangeReverse, hn]; rfl
    rw [e1, e2]
    exact Search.in_range_correct x p

example : ([300, 7].map (· % 256)).Nodup ∧ ¬ ([300, 44].map (· % 256)).Nodup := by decide

/-- C111 is false of types of 64 bits, as C57: a character is found that is not there. -/
theorem literal_in_range_refuted : (Literal.make 64 [0]).inRange 64 256 = some 0 ∧ 256 ∉ [0] := by
  decide +kernel

end ELC.View
