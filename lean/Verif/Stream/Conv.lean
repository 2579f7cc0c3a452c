import Verif.Utf.Props
import Verif.Stream.Spec

/-! Lemmas about the streams that convert. -/
namespace ELC.Stream
open Spec

theorem convRead_done {k : Code} {size : Nat} {ks got src : List Nat} (h : size ≤ got.length) :
    convRead k size ks got src = .ok (got, src) := by
  rw [convRead, if_pos h]

/-- One turn of the loop when all of the window is converted. -/
theorem convRead_step {k : Code} {size : Nat} {ks got chunk rest out : List Nat} {n : Nat}
    (hs : got.length < size) (hn : n = min (ks.headD (bufSize k)) (bufSize k))
    (hc : (chunk ++ rest).take n = chunk) (hd : (chunk ++ rest).drop n = rest) (hne : chunk ≠ [])
    (hr : autoToUtf32 k chunk = ⟨true, chunk.length, out⟩) :
    convRead k size ks got (chunk ++ rest) =
      if size < got.length + out.length then .overflow
      else convRead k size ks.tail (got ++ out) rest := by
  rw [convRead, if_neg (by omega)]
  simp only [← hn, hc, hd]
  have hl : 0 < chunk.length := List.length_pos_iff.2 hne
  rw [dif_neg (by omega), hr, if_neg (by simp)]
  by_cases ho : size < got.length + out.length
  · rw [if_pos ho, if_pos ho]
  · rw [if_neg ho, if_neg ho]
    simp only [List.drop_length, List.length_nil, List.nil_append]
    rw [dif_neg (by omega)]

theorem convRead_dies {k : Code} {size : Nat} {ks got src : List Nat} {n : Nat}
    (hs : got.length < size) (hn : n = min (ks.headD (bufSize k)) (bufSize k))
    (hne : src.take n ≠ [])
    (hr : (autoToUtf32 k (src.take n)).success = false) :
    convRead k size ks got src = .dies := by
  rw [convRead, if_neg (by omega)]
  simp only [← hn]
  have hl : 0 < (src.take n).length := List.length_pos_iff.2 hne
  rw [dif_neg (by omega), if_pos (by simp [hr])]

theorem convRead_empty {k : Code} {size : Nat} {ks got src : List Nat}
    (hne : src.take (min (ks.headD (bufSize k)) (bufSize k)) = []) :
    convRead k size ks got src = .ok (got, src) := by
  rw [convRead]
  by_cases h : size ≤ got.length
  · rw [if_pos h]
  · rw [if_neg h]
    simp only [hne]
    rw [dif_pos (by simp)]

theorem encodeText_utf32 (s : List Nat) : encodeText .utf32 s = s := by
  induction s with
  | nil => rfl
  | cons c r ih =>
    show c :: encodeText .utf32 r = c :: r
    rw [ih]

/-- What a conversion to UTF-32 does to any window. -/
theorem autoToUtf32_sound (k : Code) (l : List Nat) (hl : ∀ u ∈ l, IsUnit k u) :
    ∃ s rest, l = encodeText k s ++ rest ∧
      autoToUtf32 k l = ⟨rest.isEmpty, (encodeText k s).length, s⟩ ∧ (∀ c ∈ s, Encodable k c) := by
  match k with
  | .utf8 =>
    obtain ⟨s, rest, h1, h2, h3, -⟩ := Utf.utf8_to_utf32_prefix l hl
    exact ⟨s, rest, h1, h3, fun c hc => Or.inr (h2 c hc)⟩
  | .utf16 =>
    obtain ⟨s, rest, h1, h2, -, h3, -⟩ := Utf.utf16_to_other_prefix l hl
    exact ⟨s, rest, h1, h3, fun c hc => Or.inr (h2 c hc)⟩
  | .utf32 =>
    have e : encodeText .utf32 l = l := encodeText_utf32 l
    exact ⟨l, [], by rw [e, List.append_nil], by rw [e]; rfl, fun c hc => Or.inl rfl⟩

/-- What a conversion to UTF-32 does to a text. -/
theorem autoToUtf32_text (k : Code) (s : List Nat)
    (hs : ∀ c ∈ s, k = .utf32 ∨ Utf.Spec.IsScalar c) :
    autoToUtf32 k (encodeText k s) = ⟨true, (encodeText k s).length, s⟩ := by
  match k with
  | .utf8 =>
    have h : ∀ c ∈ s, Utf.Spec.IsCodePoint c := fun c hc => by
      have := hs c hc
      simp only [reduceCtorEq, false_or] at this
      exact this.1
    have := Utf.utf32_utf8_utf32 s h
    rw [this.1] at this
    exact this.2
  | .utf16 =>
    have h : ∀ c ∈ s, Utf.Spec.IsScalar c := fun c hc => by
      have := hs c hc
      simpa only [reduceCtorEq, false_or] using this
    have := Utf.utf32_utf16_utf32 s h
    rw [this.1] at this
    exact this.2
  | .utf32 =>
    have e : encodeText .utf32 s = s := encodeText_utf32 s
    rw [e]; rfl

theorem encode_ne_nil (k : Code) (c : Nat) : encode k c ≠ [] := by
  cases k
  · show Utf.Spec.utf8 c ≠ []
    unfold Utf.Spec.utf8
    repeat' split
    all_goals simp
  · show Utf.Spec.utf16 c ≠ []
    unfold Utf.Spec.utf16
    split <;> simp
  · simp [encode]

theorem encode_length_le (k : Code) (c : Nat) : (encode k c).length ≤ bufSize k := by
  cases k
  · show (Utf.Spec.utf8 c).length ≤ 4
    unfold Utf.Spec.utf8
    repeat' split
    all_goals simp
  · show (Utf.Spec.utf16 c).length ≤ 2
    unfold Utf.Spec.utf16
    split <;> simp
  · simp [encode, bufSize]

theorem encodeText_cons (k : Code) (c : Nat) (s : List Nat) :
    encodeText k (c :: s) = encode k c ++ encodeText k s := by simp [encodeText]

theorem encodeText_append (k : Code) (s t : List Nat) :
    encodeText k (s ++ t) = encodeText k s ++ encodeText k t := by simp [encodeText]

theorem encode_prefix {k : Code} {x c : Nat} {q : List Nat} (hk : k ≠ .utf32)
    (hx : Encodable k x) (hc : k = .utf32 ∨ Utf.Spec.IsScalar c)
    (h : encode k x = encode k c ++ q) : x = c := by
  have hx' : x < 0x110000 := by
    rcases hx with h | h
    · exact absurd h hk
    · unfold Utf.Spec.IsCodePoint at h; omega
  have hc' : c < 0x110000 := by
    rcases hc with h | h
    · exact absurd h hk
    · have := h.1; omega
  match k, hk, h with
  | .utf8, _, h =>
    have h' : Utf.Spec.utf8 x = Utf.Spec.utf8 c ++ q := h
    obtain ⟨b, bs, h1, h2⟩ := Utf.decodeUtf8_utf8 x hx' []
    obtain ⟨b', bs', h3, h4⟩ := Utf.decodeUtf8_utf8 c hc' q
    rw [h1, h3] at h'
    simp only [List.cons_append, List.cons.injEq] at h'
    obtain ⟨rfl, rfl⟩ := h'
    rw [List.append_nil, h4] at h2
    simp only [Option.some.injEq, Prod.mk.injEq] at h2
    exact h2.1.symm
  | .utf16, _, h =>
    have h' : Utf.Spec.utf16 x = Utf.Spec.utf16 c ++ q := h
    unfold Utf.Spec.utf16 at h'
    by_cases h1 : x < 0x10000 <;> by_cases h2 : c < 0x10000
    · rw [if_pos h1, if_pos h2] at h'
      simp at h'
      exact h'.1
    · rw [if_pos h1, if_neg h2] at h'
      simp at h'
    · rw [if_neg h1, if_pos h2] at h'
      simp only [List.cons_append, List.nil_append, List.cons.injEq] at h'
      rcases hc with hc | hc
      · cases hc
      · unfold Utf.Spec.IsScalar at hc
        omega
    · rw [if_neg h1, if_neg h2] at h'
      simp only [List.cons_append, List.nil_append, List.cons.injEq] at h'
      omega

theorem encodeText_units (k : Code) (s : List Nat)
    (hs : ∀ x ∈ s, k = .utf32 ∨ Utf.Spec.IsScalar x) : ∀ u ∈ encodeText k s, IsUnit k u := by
  intro u hu
  rw [encodeText, List.mem_flatMap] at hu
  obtain ⟨c, hc, hu⟩ := hu
  have h := hs c hc
  match k, h, hu with
  | .utf32, _, _ => trivial
  | .utf8, h, hu =>
    have h1 : c ≤ 0x10FFFF := by
      rcases h with h | h
      · cases h
      · exact h.1
    show u < 2 ^ 8
    have hu' : u ∈ Utf.Spec.utf8 c := hu
    unfold Utf.Spec.utf8 Utf.Spec.cont at hu'
    split at hu'
    · simp at hu'; omega
    split at hu'
    · simp at hu'; omega
    split at hu'
    · simp at hu'; omega
    · simp at hu'; omega
  | .utf16, h, hu =>
    have h1 : c ≤ 0x10FFFF := by
      rcases h with h | h
      · cases h
      · exact h.1
    show u < 2 ^ 16
    have hu' : u ∈ Utf.Spec.utf16 c := hu
    unfold Utf.Spec.utf16 at hu'
    split at hu'
    · simp at hu'; omega
    · simp at hu'; omega

theorem utf32ToAuto_ok {k : Code} {c : Nat} (h : Encodable k c) :
    utf32ToAuto k c = ⟨true, 1, encode k c⟩ := by
  match k, h with
  | .utf8, h =>
    have hc : ∀ x ∈ [c], Utf.Spec.IsCodePoint x := by
      intro x hx; rw [List.mem_singleton] at hx; subst hx
      rcases h with h | h
      · cases h
      · exact h
    have := (Utf.utf32_utf8_utf32 [c] hc).1
    simpa [utf32ToAuto, encode, Utf.Spec.utf8Text] using this
  | .utf16, h =>
    obtain ⟨s, rest, h1, h2, h4, -, h3⟩ := Utf.utf32_to_other_prefix [c]
    have hc : Utf.Spec.IsCodePoint c := by
      rcases h with h | h
      · cases h
      · exact h
    match s, rest, h1, h4 with
    | [], _, h1, h4 =>
      simp only [List.nil_append] at h1
      exact absurd hc (h4 c [] h1.symm)
    | d :: s', rest, h1, _ =>
      simp only [List.cons_append, List.cons.injEq] at h1
      obtain ⟨rfl, h1⟩ := h1
      have h5 := List.append_eq_nil_iff.1 h1.symm
      obtain ⟨rfl, rfl⟩ := h5
      simpa [utf32ToAuto, encode, Utf.Spec.utf16Text] using h3
  | .utf32, _ => rfl

theorem utf32ToAuto_bad {k : Code} {c : Nat} (h : ¬ Encodable k c) :
    (utf32ToAuto k c).success = false ∧ (utf32ToAuto k c).output = [] := by
  have hc : ¬ Utf.Spec.IsCodePoint c := fun hc => h (Or.inr hc)
  obtain ⟨s, rest, h1, h2, -, h8, h16⟩ := Utf.utf32_to_other_prefix [c]
  have hs : s = [] := by
    match s, h1, h2 with
    | [], _, _ => rfl
    | d :: s', h1, h2 =>
      simp only [List.cons_append, List.cons.injEq] at h1
      obtain ⟨rfl, h1⟩ := h1
      exact absurd (h2 c (by simp)) hc
  subst hs
  rw [List.nil_append] at h1
  subst h1
  match k, h with
  | .utf32, h => exact absurd (Or.inl rfl) h
  | .utf8, h =>
    rw [utf32ToAuto, h8]
    exact ⟨rfl, rfl⟩
  | .utf16, h =>
    rw [utf32ToAuto, h16]
    exact ⟨rfl, rfl⟩

end ELC.Stream
