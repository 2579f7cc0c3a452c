import Verif.Utf.Lemmas

/-! Properties C23, C24, C25: UTF conversion. -/
namespace ELC.Utf
open Spec

/-- C23: `encode_utf8` writes exactly the RFC 3629 bytes of every code point and returns their
number; everything above the Unicode range is refused. -/
theorem encode_utf8_correct (c : Nat) :
    (IsCodePoint c → encodeUtf8 c = some ⟨utf8 c, (utf8 c).length⟩) ∧
    (¬ IsCodePoint c → encodeUtf8 c = none) := by
  unfold IsCodePoint
  exact ⟨fun h => encodeUtf8_eq c (by omega), fun h => encodeUtf8_none c (by omega)⟩

/-- C23: decoding the encoding of a code point, whatever follows it, returns the code point and
consumes exactly the bytes written. -/
theorem utf8_round_trip (c : Nat) (hc : IsCodePoint c) (rest : List Nat) :
    ∃ e b bs, encodeUtf8 c = some e ∧ e.units = b :: bs ∧ e.size = e.units.length ∧
      decodeUtf8 b (bs ++ rest) = some (c, e.size) := by
  unfold IsCodePoint at hc
  obtain ⟨b, bs, h1, h2⟩ := decodeUtf8_utf8 c (by omega) rest
  exact ⟨_, b, bs, encodeUtf8_eq c (by omega), h1, rfl, h2⟩

/-- C23: every byte sequence the decoder accepts is exactly the encoding of the code point it
returns (so over-long forms, stray continuation bytes and truncated sequences are refused). -/
theorem utf8_decode_canonical (b : Nat) (bs : List Nat) (c n : Nat) (hb : b < 256)
    (hbs : ∀ x ∈ bs, x < 256) (h : decodeUtf8 b bs = some (c, n)) :
    IsCodePoint c ∧ n ≤ (b :: bs).length ∧ (b :: bs).take n = utf8 c ∧
      encodeUtf8 c = some ⟨(b :: bs).take n, n⟩ := by
  obtain ⟨h1, h2, h3, h4⟩ := decodeUtf8_canonical hb hbs h
  refine ⟨by unfold IsCodePoint; omega, by simpa using h2, h3.symm, ?_⟩
  rw [encodeUtf8_eq c h1, ← h3, h4]

example : IsCodePoint 0x20AC ∧ utf8 0x20AC = [0xE2, 0x82, 0xAC] := by
  unfold IsCodePoint; decide
example : decodeUtf8 0xE2 [0x82, 0xAC, 0x41] = some (0x20AC, 3) := by decide
example : decodeUtf8 0xC0 [0x80] = none ∧ decodeUtf8 0xE0 [0x80, 0x80] = none := by decide

/-- C24: decoding the UTF-16 encoding of a scalar value returns it and consumes exactly the units
written. -/
theorem utf16_round_trip (c : Nat) (hc : IsScalar c) (rest : List Nat) :
    ∃ e b bs, encodeUtf16 c = some e ∧ e.units = b :: bs ∧ e.units = utf16 c ∧
      e.size = e.units.length ∧ decodeUtf16 b (bs ++ rest) = some (c, e.size) := by
  obtain ⟨b, bs, h1, h2⟩ := decodeUtf16_utf16 c hc rest
  have hc' : c < 0x110000 := by unfold IsScalar at hc; omega
  exact ⟨_, b, bs, encodeUtf16_eq c hc', h1, rfl, rfl, h2⟩

/-- C24: everything above the Unicode range is refused. -/
theorem encode_utf16_refuses (c : Nat) (hc : ¬ IsCodePoint c) : encodeUtf16 c = none :=
  encodeUtf16_none c (by unfold IsCodePoint at hc; omega)

/-- C24: every unit sequence the decoder accepts is exactly the encoding of what it returns. -/
theorem utf16_decode_canonical (b : Nat) (bs : List Nat) (c n : Nat) (hb : b < 2 ^ 16)
    (h : decodeUtf16 b bs = some (c, n)) :
    IsCodePoint c ∧ n ≤ (b :: bs).length ∧ (b :: bs).take n = utf16 c ∧
      encodeUtf16 c = some ⟨(b :: bs).take n, n⟩ := by
  obtain ⟨h1, h2, h3, h4⟩ := decodeUtf16_canonical hb h
  refine ⟨by unfold IsCodePoint; omega, by simpa using h2, h3.symm, ?_⟩
  rw [encodeUtf16_eq c h1, ← h3, h4]

example : IsScalar 0x1F600 ∧ utf16 0x1F600 = [0xD83D, 0xDE00] := by unfold IsScalar; decide
example : decodeUtf16 0xD83D [0xDE00] = some (0x1F600, 2) := by decide

/-! ### whole texts (C25) -/

theorem utf32ToUtf8Loop_append (s t : List Nat) (hs : ∀ c ∈ s, c < 0x110000) :
    ∀ done out, utf32ToUtf8Loop done out (s ++ t) =
      utf32ToUtf8Loop (done + s.length) (out ++ utf8Text s) t := by
  induction s with
  | nil => intro done out; simp [utf8Text]
  | cons c s ih =>
    intro done out
    have hc := hs c (by simp)
    rw [List.cons_append, utf32ToUtf8Loop, encodeUtf8_eq c hc]
    simp only [put_full]
    rw [ih (fun x hx => hs x (by simp [hx]))]
    simp only [utf8Text, List.flatMap_cons, List.append_assoc, List.length_cons]
    congr 1; omega

theorem utf32ToUtf16Loop_append (s t : List Nat) (hs : ∀ c ∈ s, c < 0x110000) :
    ∀ done out, utf32ToUtf16Loop done out (s ++ t) =
      utf32ToUtf16Loop (done + s.length) (out ++ utf16Text s) t := by
  induction s with
  | nil => intro done out; simp [utf16Text]
  | cons c s ih =>
    intro done out
    have hc := hs c (by simp)
    rw [List.cons_append, utf32ToUtf16Loop, encodeUtf16_eq c hc]
    simp only [put_full]
    rw [ih (fun x hx => hs x (by simp [hx]))]
    simp only [utf16Text, List.flatMap_cons, List.append_assoc, List.length_cons]
    congr 1; omega

theorem utf8ToUtf32Loop_append (s t : List Nat) (hs : ∀ c ∈ s, c < 0x110000) :
    ∀ done out, utf8ToUtf32Loop done out (utf8Text s ++ t) =
      utf8ToUtf32Loop (done + (utf8Text s).length) (out ++ s) t := by
  induction s with
  | nil => intro done out; simp [utf8Text]
  | cons c s ih =>
    intro done out
    obtain ⟨b, bs, h1, h2⟩ := decodeUtf8_utf8 c (hs c (by simp)) (utf8Text s ++ t)
    have e : utf8Text (c :: s) ++ t = b :: (bs ++ (utf8Text s ++ t)) := by
      simp [utf8Text, h1]
    have hd : (b :: (bs ++ (utf8Text s ++ t))).drop (utf8 c).length = utf8Text s ++ t := by
      rw [h1, ← List.cons_append]; simp
    rw [e, utf8ToUtf32Loop]
    split
    · next h => rw [h2] at h; simp at h
    · next code n h =>
      rw [h2] at h; simp at h; obtain ⟨rfl, rfl⟩ := h
      rw [hd, ih (fun x hx => hs x (by simp [hx]))]
      simp only [utf8Text, List.flatMap_cons, List.length_append, List.append_assoc,
        List.singleton_append, Nat.add_assoc]

theorem utf16ToUtf32Loop_append (s t : List Nat) (hs : ∀ c ∈ s, IsScalar c) :
    ∀ done out, utf16ToUtf32Loop done out (utf16Text s ++ t) =
      utf16ToUtf32Loop (done + (utf16Text s).length) (out ++ s) t := by
  induction s with
  | nil => intro done out; simp [utf16Text]
  | cons c s ih =>
    intro done out
    obtain ⟨b, bs, h1, h2⟩ := decodeUtf16_utf16 c (hs c (by simp)) (utf16Text s ++ t)
    have e : utf16Text (c :: s) ++ t = b :: (bs ++ (utf16Text s ++ t)) := by
      simp [utf16Text, h1]
    have hd : (b :: (bs ++ (utf16Text s ++ t))).drop (utf16 c).length = utf16Text s ++ t := by
      rw [h1, ← List.cons_append]; simp
    rw [e, utf16ToUtf32Loop]
    split
    · next h => rw [h2] at h; simp at h
    · next code n h =>
      rw [h2] at h; simp at h; obtain ⟨rfl, rfl⟩ := h
      rw [hd, ih (fun x hx => hs x (by simp [hx]))]
      simp only [utf16Text, List.flatMap_cons, List.length_append, List.append_assoc,
        List.singleton_append, Nat.add_assoc]

theorem utf8ToUtf16Loop_append (s t : List Nat) (hs : ∀ c ∈ s, c < 0x110000) :
    ∀ done out, utf8ToUtf16Loop done out (utf8Text s ++ t) =
      utf8ToUtf16Loop (done + (utf8Text s).length) (out ++ utf16Text s) t := by
  induction s with
  | nil => intro done out; simp [utf8Text, utf16Text]
  | cons c s ih =>
    intro done out
    obtain ⟨b, bs, h1, h2⟩ := decodeUtf8_utf8 c (hs c (by simp)) (utf8Text s ++ t)
    have e : utf8Text (c :: s) ++ t = b :: (bs ++ (utf8Text s ++ t)) := by
      simp [utf8Text, h1]
    have hd : (b :: (bs ++ (utf8Text s ++ t))).drop (utf8 c).length = utf8Text s ++ t := by
      rw [h1, ← List.cons_append]; simp
    rw [e, utf8ToUtf16Loop]
    split
    · next h => rw [h2] at h; simp at h
    · next code n h =>
      rw [h2] at h; simp at h; obtain ⟨rfl, rfl⟩ := h
      rw [encodeUtf16_eq c (hs c (by simp))]
      simp only [put_full]
      rw [hd, ih (fun x hx => hs x (by simp [hx]))]
      simp only [utf8Text, utf16Text, List.flatMap_cons, List.length_append, List.append_assoc,
        Nat.add_assoc]

theorem utf16ToUtf8Loop_append (s t : List Nat) (hs : ∀ c ∈ s, IsScalar c) :
    ∀ done out, utf16ToUtf8Loop done out (utf16Text s ++ t) =
      utf16ToUtf8Loop (done + (utf16Text s).length) (out ++ utf8Text s) t := by
  induction s with
  | nil => intro done out; simp [utf8Text, utf16Text]
  | cons c s ih =>
    intro done out
    obtain ⟨b, bs, h1, h2⟩ := decodeUtf16_utf16 c (hs c (by simp)) (utf16Text s ++ t)
    have e : utf16Text (c :: s) ++ t = b :: (bs ++ (utf16Text s ++ t)) := by
      simp [utf16Text, h1]
    have hd : (b :: (bs ++ (utf16Text s ++ t))).drop (utf16 c).length = utf16Text s ++ t := by
      rw [h1, ← List.cons_append]; simp
    have hc : c < 0x110000 := by have := hs c (by simp); unfold IsScalar at this; omega
    rw [e, utf16ToUtf8Loop]
    split
    · next h => rw [h2] at h; simp at h
    · next code n h =>
      rw [h2] at h; simp at h; obtain ⟨rfl, rfl⟩ := h
      rw [encodeUtf8_eq c hc]
      simp only [put_full]
      rw [hd, ih (fun x hx => hs x (by simp [hx]))]
      simp only [utf8Text, utf16Text, List.flatMap_cons, List.length_append, List.append_assoc,
        Nat.add_assoc]

private theorem lt_of_cp {s : List Nat} (hs : ∀ c ∈ s, IsCodePoint c) :
    ∀ c ∈ s, c < 0x110000 := fun c hc => by have := hs c hc; unfold IsCodePoint at this; omega

private theorem lt_of_scalar {s : List Nat} (hs : ∀ c ∈ s, IsScalar c) :
    ∀ c ∈ s, c < 0x110000 := fun c hc => by have := hs c hc; unfold IsScalar at this; omega

/-- C25: converting a text of code points to UTF-8 and back succeeds, consumes everything and is
lossless; the intermediate text is the RFC 3629 encoding. -/
theorem utf32_utf8_utf32 (s : List Nat) (hs : ∀ c ∈ s, IsCodePoint c) :
    utf32ToUtf8 s = ⟨true, s.length, utf8Text s⟩ ∧
    utf8ToUtf32 (utf32ToUtf8 s).output = ⟨true, (utf8Text s).length, s⟩ := by
  have h1 : utf32ToUtf8 s = ⟨true, s.length, utf8Text s⟩ := by
    have := utf32ToUtf8Loop_append s [] (lt_of_cp hs) 0 []
    rw [List.append_nil] at this
    rw [utf32ToUtf8, this, utf32ToUtf8Loop]; simp
  refine ⟨h1, ?_⟩
  have := utf8ToUtf32Loop_append s [] (lt_of_cp hs) 0 []
  rw [List.append_nil] at this
  rw [h1, utf8ToUtf32, this, utf8ToUtf32Loop]; simp

/-- C25: the same through UTF-16, for texts of scalar values. -/
theorem utf32_utf16_utf32 (s : List Nat) (hs : ∀ c ∈ s, IsScalar c) :
    utf32ToUtf16 s = ⟨true, s.length, utf16Text s⟩ ∧
    utf16ToUtf32 (utf32ToUtf16 s).output = ⟨true, (utf16Text s).length, s⟩ := by
  have h1 : utf32ToUtf16 s = ⟨true, s.length, utf16Text s⟩ := by
    have := utf32ToUtf16Loop_append s [] (lt_of_scalar hs) 0 []
    rw [List.append_nil] at this
    rw [utf32ToUtf16, this, utf32ToUtf16Loop]; simp
  refine ⟨h1, ?_⟩
  have := utf16ToUtf32Loop_append s [] hs 0 []
  rw [List.append_nil] at this
  rw [h1, utf16ToUtf32, this, utf16ToUtf32Loop]; simp

/-- C25: UTF-8 to UTF-16 and back. -/
theorem utf8_utf16_utf8 (s : List Nat) (hs : ∀ c ∈ s, IsScalar c) :
    utf8ToUtf16 (utf8Text s) = ⟨true, (utf8Text s).length, utf16Text s⟩ ∧
    utf16ToUtf8 (utf8ToUtf16 (utf8Text s)).output =
      ⟨true, (utf16Text s).length, utf8Text s⟩ := by
  have h1 : utf8ToUtf16 (utf8Text s) = ⟨true, (utf8Text s).length, utf16Text s⟩ := by
    have := utf8ToUtf16Loop_append s [] (lt_of_scalar hs) 0 []
    rw [List.append_nil] at this
    rw [utf8ToUtf16, this, utf8ToUtf16Loop]; simp
  refine ⟨h1, ?_⟩
  have := utf16ToUtf8Loop_append s [] hs 0 []
  rw [List.append_nil] at this
  rw [h1, utf16ToUtf8, this, utf16ToUtf8Loop]; simp

example : ∀ c ∈ [0x41, 0x20AC, 0x1F600], IsScalar c := by unfold IsScalar; decide
example : utf8Text [0x41, 0xE9] = [0x41, 0xC3, 0xA9] := by decide

theorem utf8ToUtf32Loop_sound (inp : List Nat) (hb : ∀ x ∈ inp, x < 256) :
    ∀ done out, ∃ s rest, inp = utf8Text s ++ rest ∧ (∀ c ∈ s, c < 0x110000) ∧
      utf8ToUtf32Loop done out inp = ⟨rest.isEmpty, done + (utf8Text s).length, out ++ s⟩ ∧
      (∀ c t, c < 0x110000 → rest ≠ utf8 c ++ t) := by
  induction hn : inp.length using Nat.strongRecOn generalizing inp with
  | ind n ih =>
    intro done out
    match inp, hb with
    | [], _ =>
      refine ⟨[], [], by simp [utf8Text], by simp, by simp [utf8ToUtf32Loop, utf8Text], ?_⟩
      intro c t _ h
      exact utf8_ne_nil c (List.append_eq_nil_iff.1 h.symm).1
    | b :: bs, hb =>
      rw [utf8ToUtf32Loop]
      split
      · next h =>
        refine ⟨[], b :: bs, by simp [utf8Text], by simp, by simp [utf8Text], ?_⟩
        intro c t hc heq
        obtain ⟨b', bs', h1, h2⟩ := decodeUtf8_utf8 c hc t
        rw [h1, List.cons_append] at heq
        injection heq with e1 e2
        subst e1; subst e2
        rw [h2] at h; simp at h
      · next code n' h =>
        obtain ⟨c1, c2, c3, c4⟩ := decodeUtf8_canonical (hb b (by simp))
          (fun x hx => hb x (by simp [hx])) h
        have hpos := decodeUtf8_pos h
        obtain ⟨s, rest, e1, e2, e3, e4⟩ := ih ((b :: bs).drop n').length
          (by simp at hn ⊢; omega) ((b :: bs).drop n')
          (fun x hx => hb x (List.mem_of_mem_drop hx)) rfl (done + n') (out ++ [code])
        refine ⟨code :: s, rest, ?_, ?_, ?_, e4⟩
        · simp only [utf8Text, List.flatMap_cons, List.append_assoc]
          rw [c3]
          have := (List.take_append_drop n' (b :: bs)).symm
          rw [e1] at this; exact this
        · intro c hc
          rcases List.mem_cons.1 hc with rfl | hc
          · exact c1
          · exact e2 c hc
        · refine e3.trans ?_
          simp [utf8Text, c4, Nat.add_assoc]

/-- C25, error reporting: for every byte string, `utf8_to_utf32` stops at the longest
prefix that is a UTF-8 text; what it outputs is the text of that prefix, and it
reports success exactly when the prefix is everything. -/
theorem utf8_to_utf32_prefix (inp : List Nat) (hb : ∀ x ∈ inp, x < 256) :
    ∃ s rest, inp = utf8Text s ++ rest ∧ (∀ c ∈ s, IsCodePoint c) ∧
      utf8ToUtf32 inp = ⟨rest.isEmpty, (utf8Text s).length, s⟩ ∧
      (∀ c t, IsCodePoint c → rest ≠ utf8 c ++ t) := by
  obtain ⟨s, rest, h1, h2, h3, h4⟩ := utf8ToUtf32Loop_sound inp hb 0 []
  refine ⟨s, rest, h1, fun c hc => by have := h2 c hc; unfold IsCodePoint; omega, ?_, ?_⟩
  · rw [utf8ToUtf32, h3]; simp
  · intro c t hc; exact h4 c t (by unfold IsCodePoint at hc; omega)

example : utf8ToUtf32 [0x41, 0xC3] = ⟨false, 1, [0x41]⟩ := by
  simp [utf8ToUtf32, utf8ToUtf32Loop, decodeUtf8]

theorem utf32ToUtf8Loop_sound (inp : List Nat) : ∀ done out, ∃ s rest, inp = s ++ rest ∧
    (∀ c ∈ s, IsCodePoint c) ∧
    utf32ToUtf8Loop done out inp = ⟨rest.isEmpty, done + s.length, out ++ utf8Text s⟩ ∧
    (∀ c t, rest = c :: t → ¬ IsCodePoint c) := by
  induction inp with
  | nil => intro done out; exact ⟨[], [], rfl, by simp, by simp [utf32ToUtf8Loop, utf8Text], by simp⟩
  | cons b bs ih =>
    intro done out
    by_cases hb : b < 0x110000
    · rw [utf32ToUtf8Loop, encodeUtf8_eq b hb]
      simp only [put_full]
      obtain ⟨s, rest, h1, h2, h3, h4⟩ := ih (done + 1) (out ++ utf8 b)
      refine ⟨b :: s, rest, by rw [h1]; rfl, ?_, ?_, h4⟩
      · intro c hc
        rcases List.mem_cons.1 hc with rfl | hc
        · unfold IsCodePoint; omega
        · exact h2 c hc
      · rw [h3]; simp [utf8Text]; omega
    · rw [utf32ToUtf8Loop, encodeUtf8_none b (by omega)]
      refine ⟨[], b :: bs, rfl, by simp, by simp [utf8Text], ?_⟩
      intro c t h; injection h with h _; subst h; unfold IsCodePoint; omega

theorem utf32ToUtf16Loop_sound (inp : List Nat) : ∀ done out, ∃ s rest, inp = s ++ rest ∧
    (∀ c ∈ s, IsCodePoint c) ∧
    utf32ToUtf16Loop done out inp = ⟨rest.isEmpty, done + s.length, out ++ utf16Text s⟩ ∧
    (∀ c t, rest = c :: t → ¬ IsCodePoint c) := by
  induction inp with
  | nil => intro done out; exact ⟨[], [], rfl, by simp, by simp [utf32ToUtf16Loop, utf16Text], by simp⟩
  | cons b bs ih =>
    intro done out
    by_cases hb : b < 0x110000
    · rw [utf32ToUtf16Loop, encodeUtf16_eq b hb]
      simp only [put_full]
      obtain ⟨s, rest, h1, h2, h3, h4⟩ := ih (done + 1) (out ++ utf16 b)
      refine ⟨b :: s, rest, by rw [h1]; rfl, ?_, ?_, h4⟩
      · intro c hc
        rcases List.mem_cons.1 hc with rfl | hc
        · unfold IsCodePoint; omega
        · exact h2 c hc
      · rw [h3]; simp [utf16Text]; omega
    · rw [utf32ToUtf16Loop, encodeUtf16_none b (by omega)]
      refine ⟨[], b :: bs, rfl, by simp, by simp [utf16Text], ?_⟩
      intro c t h; injection h with h _; subst h; unfold IsCodePoint; omega

/-- C53: from UTF-32, the conversions stop at the first value that is not a code point; what came before
is converted, and success is reported exactly when nothing is left. -/
theorem utf32_to_other_prefix (inp : List Nat) : ∃ s rest, inp = s ++ rest ∧ (∀ c ∈ s, IsCodePoint c) ∧
    (∀ c t, rest = c :: t → ¬ IsCodePoint c) ∧
    utf32ToUtf8 inp = ⟨rest.isEmpty, s.length, utf8Text s⟩ ∧
    utf32ToUtf16 inp = ⟨rest.isEmpty, s.length, utf16Text s⟩ := by
  obtain ⟨s, rest, h1, h2, h3, h4⟩ := utf32ToUtf8Loop_sound inp 0 []
  obtain ⟨s', rest', h1', h2', h3', h4'⟩ := utf32ToUtf16Loop_sound inp 0 []
  have key : ∀ (s s' rest rest' : List Nat), s ++ rest = s' ++ rest' → (∀ c ∈ s, IsCodePoint c) →
      (∀ c ∈ s', IsCodePoint c) → (∀ c t, rest = c :: t → ¬ IsCodePoint c) →
      (∀ c t, rest' = c :: t → ¬ IsCodePoint c) → s = s' ∧ rest = rest' := by
    intro s
    induction s with
    | nil =>
      intro s' rest rest' he _ h2 h3 _
      cases s' with
      | nil => exact ⟨rfl, he⟩
      | cons c s' => exact absurd (h2 c (by simp)) (h3 c _ he)
    | cons a s ih =>
      intro s' rest rest' he h1 h2 h3 h4
      cases s' with
      | nil => exact absurd (h1 a (by simp)) (h4 a _ he.symm)
      | cons c s' =>
        simp only [List.cons_append, List.cons.injEq] at he
        obtain ⟨e1, e2⟩ := ih s' rest rest' he.2 (fun c hc => h1 c (by simp [hc]))
          (fun c hc => h2 c (by simp [hc])) h3 h4
        exact ⟨by rw [he.1, e1], e2⟩
  obtain ⟨e1, e2⟩ := key s s' rest rest' (by rw [← h1, ← h1']) h2 h2' h4 h4'
  subst e1; subst e2
  refine ⟨s, rest, h1, h2, h4, ?_, ?_⟩
  · rw [utf32ToUtf8, h3]; simp
  · rw [utf32ToUtf16, h3']; simp

example : utf32ToUtf8 [0x41, 0x110000, 0x42] = ⟨false, 1, [0x41]⟩ := by decide

/-- C53: from UTF-8 to UTF-16, the same longest prefix as from UTF-8 to UTF-32. -/
theorem utf8_to_utf16_prefix (inp : List Nat) (hb : ∀ x ∈ inp, x < 256) :
    ∃ s rest, inp = utf8Text s ++ rest ∧ (∀ c ∈ s, IsCodePoint c) ∧
      utf8ToUtf16 inp = ⟨rest.isEmpty, (utf8Text s).length, utf16Text s⟩ ∧
      (∀ c t, IsCodePoint c → rest ≠ utf8 c ++ t) := by
  obtain ⟨s, rest, h1, h2, _, h4⟩ := utf8_to_utf32_prefix inp hb
  refine ⟨s, rest, h1, h2, ?_, h4⟩
  rw [utf8ToUtf16, h1, utf8ToUtf16Loop_append s rest (lt_of_cp h2)]
  cases rest with
  | nil => simp [utf8ToUtf16Loop]
  | cons b bs =>
    rw [utf8ToUtf16Loop]
    split
    · simp
    · next code n h =>
      exfalso
      obtain ⟨c1, c2, c3, c4⟩ := decodeUtf8_canonical (hb b (by rw [h1]; simp))
        (fun x hx => hb x (by rw [h1]; simp [hx])) h
      apply h4 code ((b :: bs).drop n) (by unfold IsCodePoint; omega)
      rw [c3, List.take_append_drop]

/-- A unit that starts a surrogate pair but is not followed by the second half. -/
def Spec.BadUtf16 (l : List Nat) : Prop :=
  ∃ b t, l = b :: t ∧ 0xD800 ≤ b ∧ b ≤ 0xDBFF ∧ ∀ d t', t = d :: t' → ¬ (0xDC00 ≤ d ∧ d ≤ 0xDFFF)

theorem utf16_loops_sound (inp : List Nat) (hb : ∀ x ∈ inp, x < 2 ^ 16) :
    ∀ done out out8, ∃ s rest, inp = utf16Text s ++ rest ∧ (∀ c ∈ s, IsCodePoint c) ∧
      utf16ToUtf32Loop done out inp = ⟨rest.isEmpty, done + (utf16Text s).length, out ++ s⟩ ∧
      utf16ToUtf8Loop done out8 inp =
        ⟨rest.isEmpty, done + (utf16Text s).length, out8 ++ utf8Text s⟩ ∧
      (rest = [] ∨ BadUtf16 rest) := by
  induction hn : inp.length using Nat.strongRecOn generalizing inp with
  | ind n ih =>
    intro done out out8
    match inp, hb with
    | [], _ =>
      exact ⟨[], [], by simp [utf16Text], by simp, by simp [utf16ToUtf32Loop, utf16Text],
        by simp [utf16ToUtf8Loop, utf16Text, utf8Text], Or.inl rfl⟩
    | b :: bs, hb =>
      cases h : decodeUtf16 b bs with
      | none =>
        refine ⟨[], b :: bs, by simp [utf16Text], by simp, ?_, ?_, Or.inr ?_⟩
        · rw [utf16ToUtf32Loop]
          split
          · simp [utf16Text]
          · next h' => rw [h] at h'; cases h'
        · rw [utf16ToUtf8Loop]
          split
          · simp [utf16Text, utf8Text]
          · next h' => rw [h] at h'; cases h'
        · unfold decodeUtf16 at h
          split at h
          · next hr =>
            refine ⟨b, bs, rfl, hr.1, by omega, ?_⟩
            intro d t' hd
            subst hd
            simp only at h
            split at h
            · cases h
            · next h6 => omega
          · cases h
      | some r =>
        obtain ⟨code, n'⟩ := r
        obtain ⟨c1, c2, c3, c4⟩ := decodeUtf16_canonical (hb b (by simp)) h
        have hpos := decodeUtf16_pos h
        obtain ⟨s, rest, e1, e2, e3, e4, e5⟩ := ih ((b :: bs).drop n').length
          (by simp at hn ⊢; omega) ((b :: bs).drop n')
          (fun x hx => hb x (List.mem_of_mem_drop hx)) rfl (done + n') (out ++ [code])
          (out8 ++ utf8 code)
        refine ⟨code :: s, rest, ?_, ?_, ?_, ?_, e5⟩
        · simp only [utf16Text, List.flatMap_cons, List.append_assoc]
          rw [c3]
          have := (List.take_append_drop n' (b :: bs)).symm
          rw [e1] at this; exact this
        · intro c hc
          rcases List.mem_cons.1 hc with rfl | hc
          · unfold IsCodePoint; omega
          · exact e2 c hc
        · rw [utf16ToUtf32Loop]
          split
          · next h' => rw [h] at h'; cases h'
          · next h' =>
            rw [h] at h'; simp only [Option.some.injEq, Prod.mk.injEq] at h'
            obtain ⟨rfl, rfl⟩ := h'
            refine e3.trans ?_
            simp [utf16Text, c4, Nat.add_assoc]
        · rw [utf16ToUtf8Loop]
          split
          · next h' => rw [h] at h'; cases h'
          · next h' =>
            rw [h] at h'; simp only [Option.some.injEq, Prod.mk.injEq] at h'
            obtain ⟨rfl, rfl⟩ := h'
            rw [encodeUtf8_eq code c1]
            simp only [put_full]
            refine e4.trans ?_
            simp [utf16Text, utf8Text, c4, Nat.add_assoc]

/-- C53: from UTF-16, the conversions stop at the first leading surrogate without its second half; what
came before is converted, and success is reported exactly when nothing is left. -/
theorem utf16_to_other_prefix (inp : List Nat) (hb : ∀ x ∈ inp, x < 2 ^ 16) :
    ∃ s rest, inp = utf16Text s ++ rest ∧ (∀ c ∈ s, IsCodePoint c) ∧ (rest = [] ∨ BadUtf16 rest) ∧
      utf16ToUtf32 inp = ⟨rest.isEmpty, (utf16Text s).length, s⟩ ∧
      utf16ToUtf8 inp = ⟨rest.isEmpty, (utf16Text s).length, utf8Text s⟩ := by
  obtain ⟨s, rest, h1, h2, h3, h4, h5⟩ := utf16_loops_sound inp hb 0 [] []
  refine ⟨s, rest, h1, h2, h5, ?_, ?_⟩
  · rw [utf16ToUtf32, h3]; simp
  · rw [utf16ToUtf8, h4]; simp

example : BadUtf16 [0xD83D, 0x41] := ⟨0xD83D, [0x41], rfl, by decide, by decide, by
  intro d t' h; injection h with h _; subst h; decide⟩

/-! ### size predictions -/

theorem getUtf32ToUtf8SizeLoop_eq (s : List Nat) (hs : ∀ c ∈ s, c < 0x110000) :
    ∀ acc, getUtf32ToUtf8SizeLoop acc s = .size (acc + (utf8Text s).length) := by
  induction s with
  | nil => intro acc; simp [getUtf32ToUtf8SizeLoop, utf8Text]
  | cons c s ih =>
    intro acc
    rw [getUtf32ToUtf8SizeLoop, getEncodeUtf8Size_eq c (hs c (by simp))]
    simp only
    rw [ih (fun x hx => hs x (by simp [hx]))]
    simp [utf8Text, Nat.add_assoc]

theorem getUtf32ToUtf16SizeLoop_eq (s : List Nat) (hs : ∀ c ∈ s, c < 0x110000) :
    ∀ acc, getUtf32ToUtf16SizeLoop acc s = .size (acc + (utf16Text s).length) := by
  induction s with
  | nil => intro acc; simp [getUtf32ToUtf16SizeLoop, utf16Text]
  | cons c s ih =>
    intro acc
    rw [getUtf32ToUtf16SizeLoop, getEncodeUtf16Size_eq c (hs c (by simp))]
    simp only
    rw [ih (fun x hx => hs x (by simp [hx]))]
    simp [utf16Text, Nat.add_assoc]

theorem decodeSize_utf8 {c : Nat} (hc : c < 0x110000) {b : Nat} {bs : List Nat}
    (h : utf8 c = b :: bs) : getDecodeUtf8Size b = some (utf8 c).length := by
  unfold Spec.utf8 Spec.cont at h ⊢
  unfold getDecodeUtf8Size
  split at h
  · injection h with e1 e2; subst e1; rw [if_pos (by omega)]; simp [*]
  next h1 =>
  split at h
  · injection h with e1 e2; subst e1 e2; simp only [*, if_true, if_false]
    rw [if_neg (by omega), if_neg (by omega), if_pos (by omega)]; rfl
  next h2 =>
  split at h
  · injection h with e1 e2; subst e1 e2; simp only [*, if_true, if_false]
    rw [if_neg (by omega), if_neg (by omega), if_neg (by omega), if_pos (by omega)]; rfl
  next h3 =>
  · injection h with e1 e2; subst e1 e2; simp only [h1, h2, h3, if_false]
    rw [if_neg (by omega), if_neg (by omega), if_neg (by omega), if_neg (by omega),
      if_pos (by omega)]; rfl

theorem getUtf8ToUtf32SizeLoop_eq (s : List Nat) (hs : ∀ c ∈ s, c < 0x110000) :
    ∀ acc, getUtf8ToUtf32SizeLoop acc (utf8Text s) = .size (acc + s.length) := by
  induction s with
  | nil => intro acc; simp [getUtf8ToUtf32SizeLoop, utf8Text]
  | cons c s ih =>
    intro acc
    have hc := hs c (by simp)
    obtain ⟨b, bs, h1⟩ := List.exists_cons_of_ne_nil (utf8_ne_nil c)
    have e : utf8Text (c :: s) = b :: (bs ++ utf8Text s) := by simp [utf8Text, h1]
    rw [e, getUtf8ToUtf32SizeLoop, decodeSize_utf8 hc h1]
    simp only [h1, List.length_cons, List.length_append, Nat.add_sub_cancel]
    rw [if_neg (by omega), List.drop_left, ih (fun x hx => hs x (by simp [hx]))]
    congr 1; omega

theorem getUtf16ToUtf8SizeLoop_eq (s : List Nat) (hs : ∀ c ∈ s, IsScalar c) :
    ∀ acc, getUtf16ToUtf8SizeLoop acc (utf16Text s) = .size (acc + (utf8Text s).length) := by
  induction s with
  | nil => intro acc; simp [getUtf16ToUtf8SizeLoop, utf16Text, utf8Text]
  | cons c s ih =>
    intro acc
    obtain ⟨b, bs, h1, h2⟩ := decodeUtf16_utf16 c (hs c (by simp)) (utf16Text s)
    have e : utf16Text (c :: s) = b :: (bs ++ utf16Text s) := by simp [utf16Text, h1]
    have hd : (b :: (bs ++ utf16Text s)).drop (utf16 c).length = utf16Text s := by
      rw [h1, ← List.cons_append]; simp
    have hc : c < 0x110000 := lt_of_scalar hs c (by simp)
    rw [e, getUtf16ToUtf8SizeLoop]
    split
    · next h => rw [h2] at h; simp at h
    · next code n h =>
      rw [h2] at h; simp at h; obtain ⟨rfl, rfl⟩ := h
      rw [getEncodeUtf8Size_eq c hc]
      simp only
      rw [hd, ih (fun x hx => hs x (by simp [hx]))]
      simp [utf8Text, Nat.add_assoc]

theorem getUtf16ToUtf32SizeLoop_eq (s : List Nat) (hs : ∀ c ∈ s, IsScalar c) :
    ∀ acc, getUtf16ToUtf32SizeLoop acc (utf16Text s) = .size (acc + s.length) := by
  induction s with
  | nil => intro acc; simp [getUtf16ToUtf32SizeLoop, utf16Text]
  | cons c s ih =>
    intro acc
    obtain ⟨b, bs, h1, h2⟩ := decodeUtf16_utf16 c (hs c (by simp)) (utf16Text s)
    have e : utf16Text (c :: s) = b :: (bs ++ utf16Text s) := by simp [utf16Text, h1]
    have hd : (b :: (bs ++ utf16Text s)).drop (utf16 c).length = utf16Text s := by
      rw [h1, ← List.cons_append]; simp
    rw [e, getUtf16ToUtf32SizeLoop]
    split
    · next h => rw [h2] at h; simp at h
    · next code n h =>
      rw [h2] at h; simp at h; obtain ⟨rfl, rfl⟩ := h
      rw [hd, ih (fun x hx => hs x (by simp [hx]))]
      simp only [List.length_cons]; congr 1; omega

/-- C25, part: on well-formed texts five of the six size predictions equal the number of units
the conversion writes.  Missing: `get_utf8_to_utf16_size`, see the refutation below. -/
theorem predicted_sizes_partial (s : List Nat) (hs : ∀ c ∈ s, IsScalar c) :
    getUtf32ToUtf8SizeLoop 0 s = .size (utf32ToUtf8 s).output.length ∧
    getUtf32ToUtf16SizeLoop 0 s = .size (utf32ToUtf16 s).output.length ∧
    getUtf8ToUtf32SizeLoop 0 (utf8Text s) = .size (utf8ToUtf32 (utf8Text s)).output.length ∧
    getUtf16ToUtf8SizeLoop 0 (utf16Text s) = .size (utf16ToUtf8 (utf16Text s)).output.length ∧
    getUtf16ToUtf32SizeLoop 0 (utf16Text s) =
      .size (utf16ToUtf32 (utf16Text s)).output.length := by
  have hcp : ∀ c ∈ s, IsCodePoint c := fun c hc => (hs c hc).1
  obtain ⟨a1, b1⟩ := utf32_utf8_utf32 s hcp
  obtain ⟨a2, b2⟩ := utf32_utf16_utf32 s hs
  obtain ⟨a3, b3⟩ := utf8_utf16_utf8 s hs
  rw [a1] at b1; rw [a2] at b2; rw [a3] at b3
  simp only at b1 b2 b3
  rw [a1, a2, b1, b3, b2]
  have hlt := lt_of_scalar hs
  simp only [getUtf32ToUtf8SizeLoop_eq s hlt, getUtf32ToUtf16SizeLoop_eq s hlt,
    getUtf8ToUtf32SizeLoop_eq s hlt, getUtf16ToUtf8SizeLoop_eq s hs,
    getUtf16ToUtf32SizeLoop_eq s hs, Nat.zero_add, and_self]

/-- C25, part: the length read off a first byte.  A length is given exactly for the bytes some code point begins with, and
it is the length of that code point's encoding. -/
theorem first_byte_size_correct (b n : Nat) :
    getDecodeUtf8Size b = some n ↔ ∃ c, IsCodePoint c ∧ (utf8 c).head? = some b ∧ (utf8 c).length = n := by
  constructor
  · intro h
    unfold getDecodeUtf8Size at h
    by_cases h1 : b < 0x80
    · rw [if_pos h1] at h; injection h with h; subst h
      refine ⟨b, by unfold IsCodePoint; omega, ?_, ?_⟩ <;> (unfold utf8; rw [if_pos (by omega)]; rfl)
    rw [if_neg h1] at h
    by_cases h2 : b < 0xC2
    · rw [if_pos h2] at h; exact nomatch h
    rw [if_neg h2] at h
    by_cases h3 : b < 0xE0
    · rw [if_pos h3] at h; injection h with h; subst h
      refine ⟨(b - 0xC0) * 64, by unfold IsCodePoint; omega, ?_, ?_⟩ <;>
        (unfold utf8; rw [if_neg (by omega), if_pos (by omega)])
      · simp only [List.head?_cons]; congr 1; omega
      · rfl
    rw [if_neg h3] at h
    by_cases h4 : b < 0xF0
    · rw [if_pos h4] at h; injection h with h; subst h
      refine ⟨(b - 0xE0) * 4096 + 2048, by unfold IsCodePoint; omega, ?_, ?_⟩ <;>
        (unfold utf8; rw [if_neg (by omega), if_neg (by omega), if_pos (by omega)])
      · simp only [List.head?_cons]; congr 1; omega
      · rfl
    rw [if_neg h4] at h
    by_cases h5 : b < 0xF5
    · rw [if_pos h5] at h; injection h with h; subst h
      refine ⟨max ((b - 0xF0) * 262144) 0x10000, by unfold IsCodePoint; omega, ?_, ?_⟩ <;>
        (unfold utf8; rw [if_neg (by omega), if_neg (by omega), if_neg (by omega)])
      · simp only [List.head?_cons]; congr 1; omega
      · rfl
    · rw [if_neg h5] at h; exact nomatch h
  · rintro ⟨c, hc, h1, h2⟩
    obtain ⟨d, ds, h3⟩ := List.exists_cons_of_ne_nil (utf8_ne_nil c)
    have : d = b := by rw [h3] at h1; simpa using h1
    rw [← this, decodeSize_utf8 (by unfold IsCodePoint at hc; omega) h3, h2]

example : getDecodeUtf8Size 0xF4 = some 4 ∧ getDecodeUtf8Size 0xF5 = none ∧ getDecodeUtf8Size 0xC1 = none := by decide

/-- C25, what the prediction for UTF-8 to UTF-32 does at the first place where the text is not well-formed: a byte no
encoding begins with gives `npos`; a beginning whose encoding is cut off makes it go past the end of the text. -/
theorem utf8_to_utf32_size_characterised (s : List Nat) (hs : ∀ c ∈ s, IsCodePoint c) (b : Nat) (t : List Nat) :
    ((¬ ∃ c, IsCodePoint c ∧ (utf8 c).head? = some b) →
      getUtf8ToUtf32SizeLoop 0 (utf8Text s ++ b :: t) = .npos) ∧
    (∀ c, IsCodePoint c → (utf8 c).head? = some b → t.length + 1 < (utf8 c).length →
      getUtf8ToUtf32SizeLoop 0 (utf8Text s ++ b :: t) = .overrun) := by
  have key : ∀ (s : List Nat), (∀ c ∈ s, IsCodePoint c) → ∀ acc tl,
      getUtf8ToUtf32SizeLoop acc (utf8Text s ++ tl) = getUtf8ToUtf32SizeLoop (acc + s.length) tl := by
    intro s
    induction s with
    | nil => intro _ acc tl; simp [utf8Text]
    | cons c s ih =>
      intro hs acc tl
      obtain ⟨d, ds, h1⟩ := List.exists_cons_of_ne_nil (utf8_ne_nil c)
      have e : utf8Text (c :: s) ++ tl = d :: (ds ++ (utf8Text s ++ tl)) := by simp [utf8Text, h1]
      have hc : c < 0x110000 := by have := hs c (by simp); unfold IsCodePoint at this; omega
      rw [e, getUtf8ToUtf32SizeLoop, decodeSize_utf8 hc h1]
      simp only [h1, List.length_cons, List.length_append, Nat.add_sub_cancel]
      rw [if_neg (by omega), List.drop_left, ih (fun x hx => hs x (by simp [hx]))]
      congr 1; omega
  rw [key s hs, getUtf8ToUtf32SizeLoop]
  constructor
  · intro h
    cases hd : getDecodeUtf8Size b with
    | none => rfl
    | some n =>
      obtain ⟨c, h1, h2, _⟩ := (first_byte_size_correct b n).1 hd
      exact absurd ⟨c, h1, h2⟩ h
  · intro c h1 h2 h3
    rw [(first_byte_size_correct b _).2 ⟨c, h1, h2, rfl⟩]
    dsimp only
    rw [if_pos h3]

example : getUtf8ToUtf32SizeLoop 0 (utf8Text [65, 0x20AC] ++ 0xF0 :: [0x9F]) = .overrun :=
  (utf8_to_utf32_size_characterised [65, 0x20AC] (by unfold IsCodePoint; decide) 0xF0 [0x9F]).2 0x1F600
    (by unfold IsCodePoint; decide) (by decide) (by decide)

/-- C25, refutation: `get_utf8_to_utf16_size` never returns a size; on every input it either
reports `npos` or runs off its end. -/
theorem get_utf8_to_utf16_size_refuted (inp : List Nat) (n : Nat) :
    getUtf8ToUtf16SizeLoop inp ≠ .size n := by
  induction hn : inp.length using Nat.strongRecOn generalizing inp with
  | ind m ih =>
    match inp with
    | [] => rw [getUtf8ToUtf16SizeLoop]; simp
    | b :: bs =>
      rw [getUtf8ToUtf16SizeLoop]
      split
      · simp
      · next code k h =>
        split
        · simp
        · have := decodeUtf8_pos h
          exact ih ((b :: bs).drop k).length (by simp at hn ⊢; omega) _ rfl

/-- C24/C25, limit: surrogate code points do not survive UTF-16, which is why the UTF-16 statements
speak about scalar values. -/
theorem utf16_surrogates_refuted :
    ∃ s, (∀ c ∈ s, IsCodePoint c) ∧ (utf16ToUtf32 (utf32ToUtf16 s).output).output ≠ s := by
  refine ⟨[0xD800], by unfold IsCodePoint; decide, ?_⟩
  have h : utf32ToUtf16 [0xD800] = ⟨true, 1, [0xD800]⟩ := by decide
  rw [h, utf16ToUtf32, utf16ToUtf32Loop]
  simp [decodeUtf16]

/-- The constant `utf16_to_utf8_code_size = 2` (S/char_set/convert.hpp:34) is not an upper bound of
UTF-8 bytes per UTF-16 unit. -/
theorem utf16_to_utf8_code_size_refuted : (utf16ToUtf8 [0x20AC]).output.length = 3 := by
  have := (utf8_utf16_utf8 [0x20AC] (by unfold IsScalar; decide)).2
  rw [(utf8_utf16_utf8 [0x20AC] (by unfold IsScalar; decide)).1] at this
  have e : utf16Text [0x20AC] = [0x20AC] := by decide
  simp only [e] at this
  rw [this]; decide

end ELC.Utf
