import Verif.Utf.Model
import Verif.Utf.Spec

namespace ELC.Utf

theorem land_C0 : ∀ b < 256, (b &&& 0xC0 = 0x80 ↔ 0x80 ≤ b ∧ b < 0xC0) := by decide +kernel

theorem land_3F (c : Nat) : c &&& 0x3F = c % 64 := Nat.and_two_pow_sub_one_eq_mod c 6
theorem land_3FF (c : Nat) : c &&& 0x3FF = c % 1024 := Nat.and_two_pow_sub_one_eq_mod c 10

theorem encodeUtf8_eq (c : Nat) (hc : c < 0x110000) :
    encodeUtf8 c = some ⟨Spec.utf8 c, (Spec.utf8 c).length⟩ := by
  unfold encodeUtf8 Spec.utf8 Spec.cont
  simp only [land_3F, Nat.shiftRight_eq_div_pow]
  by_cases h1 : c < 0x80
  · rw [if_pos h1, if_pos (by omega)]; simp; omega
  by_cases h2 : c < 0x800
  · rw [if_neg h1, if_pos h2, if_neg (by omega), if_pos (by omega)]; simp; omega
  by_cases h3 : c < 0x10000
  · rw [if_neg h1, if_neg h2, if_pos h3, if_neg (by omega), if_neg (by omega), if_pos (by omega)]
    simp; omega
  · rw [if_neg h1, if_neg h2, if_neg h3, if_pos hc, if_neg (by omega), if_neg (by omega),
      if_neg (by omega)]
    simp; omega

theorem encodeUtf8_none (c : Nat) (hc : 0x110000 ≤ c) : encodeUtf8 c = none := by
  unfold encodeUtf8
  rw [if_neg (by omega), if_neg (by omega), if_neg (by omega), if_neg (by omega)]

theorem encodeUtf16_eq (c : Nat) (hc : c < 0x110000) :
    encodeUtf16 c = some ⟨Spec.utf16 c, (Spec.utf16 c).length⟩ := by
  unfold encodeUtf16 Spec.utf16
  simp only [land_3FF, Nat.shiftRight_eq_div_pow]
  by_cases h1 : c < 0x10000
  · rw [if_pos h1, if_pos h1]; simp; omega
  · rw [if_neg h1, if_pos hc, if_neg h1]; simp; omega

theorem encodeUtf16_none (c : Nat) (hc : 0x110000 ≤ c) : encodeUtf16 c = none := by
  unfold encodeUtf16
  rw [if_neg (by omega), if_neg (by omega)]

theorem getEncodeUtf8Size_eq (c : Nat) (hc : c < 0x110000) :
    getEncodeUtf8Size c = some (Spec.utf8 c).length := by
  unfold getEncodeUtf8Size Spec.utf8
  by_cases h1 : c < 0x80
  · rw [if_pos h1, if_pos (by omega)]; rfl
  by_cases h2 : c < 0x800
  · rw [if_neg h1, if_pos h2, if_neg (by omega), if_pos (by omega)]; rfl
  by_cases h3 : c < 0x10000
  · rw [if_neg h1, if_neg h2, if_pos h3, if_neg (by omega), if_neg (by omega), if_pos (by omega)]
    rfl
  · rw [if_neg h1, if_neg h2, if_neg h3, if_pos hc, if_neg (by omega), if_neg (by omega),
      if_neg (by omega)]
    rfl

theorem getEncodeUtf16Size_eq (c : Nat) (hc : c < 0x110000) :
    getEncodeUtf16Size c = some (Spec.utf16 c).length := by
  unfold getEncodeUtf16Size Spec.utf16
  by_cases h1 : c < 0x10000
  · rw [if_pos h1, if_pos h1]; rfl
  · rw [if_neg h1, if_pos hc, if_neg h1]; rfl

theorem utf8_ne_nil (c : Nat) : Spec.utf8 c ≠ [] := by
  unfold Spec.utf8; split <;> (try split) <;> (try split) <;> simp

theorem utf16_ne_nil (c : Nat) : Spec.utf16 c ≠ [] := by
  unfold Spec.utf16; split <;> simp

theorem utf8_length_pos (c : Nat) : 0 < (Spec.utf8 c).length :=
  List.length_pos_iff.2 (utf8_ne_nil c)

/-- Decoding the encoding of a code point. -/
theorem decodeUtf8_utf8 (c : Nat) (hc : c < 0x110000) (rest : List Nat) :
    ∃ b bs, Spec.utf8 c = b :: bs ∧
      decodeUtf8 b (bs ++ rest) = some (c, (Spec.utf8 c).length) := by
  unfold Spec.utf8 Spec.cont
  by_cases h1 : c ≤ 0x7F
  · refine ⟨c, [], by rw [if_pos h1], ?_⟩
    rw [if_pos h1]; unfold decodeUtf8; rw [if_pos (by omega)]; rfl
  have e0 : c / 64 ^ 0 = c := by simp
  rw [e0]; clear e0
  have l0 : (128 + c % 64) &&& 0xC0 = 0x80 := (land_C0 _ (by omega)).2 (by omega)
  have l1 : (128 + c / 64 ^ 1 % 64) &&& 0xC0 = 0x80 := (land_C0 _ (by omega)).2 (by omega)
  have l2 : (128 + c / 64 ^ 2 % 64) &&& 0xC0 = 0x80 := (land_C0 _ (by omega)).2 (by omega)
  by_cases h2 : c ≤ 0x7FF
  · refine ⟨_, _, by rw [if_neg h1, if_pos h2], ?_⟩
    rw [if_neg h1, if_pos h2]; unfold decodeUtf8 sub32
    rw [if_neg (by omega), if_neg (by omega), if_pos (by omega)]
    simp only [List.cons_append, List.nil_append, l0, ne_eq, not_true_eq_false, if_false,
      Nat.shiftLeft_eq, List.length_cons, List.length_nil, Option.some.injEq, Prod.mk.injEq, and_true]
    omega
  by_cases h3 : c ≤ 0xFFFF
  · refine ⟨_, _, by rw [if_neg h1, if_neg h2, if_pos h3], ?_⟩
    rw [if_neg h1, if_neg h2, if_pos h3]; unfold decodeUtf8 sub32
    rw [if_neg (by omega), if_neg (by omega), if_neg (by omega), if_pos (by omega)]
    simp only [List.cons_append, List.nil_append, l0, l1, ne_eq, not_true_eq_false, if_false,
      Nat.shiftLeft_eq, List.length_cons, List.length_nil]
    rw [if_neg (by omega)]
    simp only [Option.some.injEq, Prod.mk.injEq, and_true]
    omega
  · refine ⟨_, _, by rw [if_neg h1, if_neg h2, if_neg h3], ?_⟩
    rw [if_neg h1, if_neg h2, if_neg h3]; unfold decodeUtf8 sub32
    rw [if_neg (by omega), if_neg (by omega), if_neg (by omega), if_neg (by omega),
      if_pos (by omega)]
    simp only [List.cons_append, List.nil_append, l0, l1, l2, ne_eq, not_true_eq_false, if_false,
      Nat.shiftLeft_eq, List.length_cons, List.length_nil]
    rw [if_neg (by omega), if_neg (by omega)]
    simp only [Option.some.injEq, Prod.mk.injEq, and_true]
    omega

/-- Everything the decoder accepts is an encoding. -/
theorem decodeUtf8_canonical {b : Nat} {bs : List Nat} {c n : Nat} (hb : b < 256)
    (hbs : ∀ x ∈ bs, x < 256) (h : decodeUtf8 b bs = some (c, n)) :
    c < 0x110000 ∧ n ≤ bs.length + 1 ∧ Spec.utf8 c = (b :: bs).take n ∧
      (Spec.utf8 c).length = n := by
  unfold decodeUtf8 sub32 at h
  unfold Spec.utf8 Spec.cont
  split at h
  · next h1 =>
    simp at h; obtain ⟨rfl, rfl⟩ := h
    refine ⟨by omega, by omega, ?_, ?_⟩ <;> rw [if_pos (by omega)] <;> rfl
  next h1 =>
  split at h
  · simp at h
  next h2 =>
  split at h
  · next h3 =>
    split at h
    · next b2 r =>
      have hb2 : b2 < 256 := hbs b2 (by simp)
      split at h
      · simp at h
      next hl =>
      rw [Decidable.not_not, land_C0 _ hb2] at hl
      simp only [Nat.shiftLeft_eq, Option.some.injEq, Prod.mk.injEq] at h
      obtain ⟨hc, rfl⟩ := h
      have hc' : c = b * 64 + b2 - 0x3080 := by omega
      refine ⟨by omega, by simp, ?_, ?_⟩ <;> rw [if_neg (by omega), if_pos (by omega)]
      · simp; omega
      · rfl
    · simp at h
  next h3 =>
  split at h
  · next h4 =>
    split at h
    · next b2 b3 r =>
      have hb2 : b2 < 256 := hbs b2 (by simp)
      have hb3 : b3 < 256 := hbs b3 (by simp)
      split at h
      · simp at h
      next hl =>
      split at h
      · simp at h
      next ho =>
      split at h
      · simp at h
      next hl3 =>
      rw [Decidable.not_not, land_C0 _ hb2] at hl
      rw [Decidable.not_not, land_C0 _ hb3] at hl3
      simp only [Nat.shiftLeft_eq, Option.some.injEq, Prod.mk.injEq] at h
      obtain ⟨hc, rfl⟩ := h
      have hc' : c = b * 4096 + b2 * 64 + b3 - 0xE2080 := by omega
      refine ⟨by omega, by simp, ?_, ?_⟩ <;>
        rw [if_neg (by omega), if_neg (by omega), if_pos (by omega)]
      · simp; omega
      · rfl
    · simp at h
  next h4 =>
  split at h
  · next h5 =>
    split at h
    · next b2 b3 b4 r =>
      have hb2 : b2 < 256 := hbs b2 (by simp)
      have hb3 : b3 < 256 := hbs b3 (by simp)
      have hb4 : b4 < 256 := hbs b4 (by simp)
      split at h
      · simp at h
      next hl =>
      split at h
      · simp at h
      next ho =>
      split at h
      · simp at h
      next ho2 =>
      split at h
      · simp at h
      next hl3 =>
      split at h
      · simp at h
      next hl4 =>
      rw [Decidable.not_not, land_C0 _ hb2] at hl
      rw [Decidable.not_not, land_C0 _ hb3] at hl3
      rw [Decidable.not_not, land_C0 _ hb4] at hl4
      simp only [Nat.shiftLeft_eq, Option.some.injEq, Prod.mk.injEq] at h
      obtain ⟨hc, rfl⟩ := h
      have hc' : c = b * 262144 + b2 * 4096 + b3 * 64 + b4 - 0x3C82080 := by omega
      refine ⟨by omega, by simp, ?_, ?_⟩ <;>
        rw [if_neg (by omega), if_neg (by omega), if_neg (by omega)]
      · simp; omega
      · rfl
    · simp at h
  · simp at h

theorem decodeUtf16_utf16 (c : Nat) (hc : Spec.IsScalar c) (rest : List Nat) :
    ∃ b bs, Spec.utf16 c = b :: bs ∧
      decodeUtf16 b (bs ++ rest) = some (c, (Spec.utf16 c).length) := by
  unfold Spec.IsScalar at hc
  unfold Spec.utf16
  by_cases h1 : c < 0x10000
  · refine ⟨c, [], by rw [if_pos h1], ?_⟩
    rw [if_pos h1]; unfold decodeUtf16; rw [if_neg (by omega)]; rfl
  · refine ⟨_, _, by rw [if_neg h1], ?_⟩
    rw [if_neg h1]; unfold decodeUtf16 sub32
    rw [if_pos (by omega)]
    simp only [List.cons_append, List.nil_append]
    rw [if_pos (by omega)]
    simp only [Nat.shiftLeft_eq, List.length_cons, List.length_nil, Option.some.injEq,
      Prod.mk.injEq, and_true]
    omega

theorem decodeUtf16_canonical {b : Nat} {bs : List Nat} {c n : Nat} (hb : b < 2 ^ 16)
    (h : decodeUtf16 b bs = some (c, n)) :
    c < 0x110000 ∧ n ≤ bs.length + 1 ∧ Spec.utf16 c = (b :: bs).take n ∧
      (Spec.utf16 c).length = n := by
  unfold decodeUtf16 sub32 at h
  unfold Spec.utf16
  split at h
  · next h1 =>
    split at h
    · next b2 r =>
      split at h
      · next h2 =>
        simp only [Nat.shiftLeft_eq, Option.some.injEq, Prod.mk.injEq] at h
        obtain ⟨hc, rfl⟩ := h
        have hc' : c = b * 1024 + b2 - 0x35FDC00 := by omega
        refine ⟨by omega, by simp, ?_, ?_⟩ <;> rw [if_neg (by omega)]
        · simp; omega
        · rfl
      · simp at h
    · simp at h
  · next h1 =>
    simp at h; obtain ⟨rfl, rfl⟩ := h
    refine ⟨by omega, by omega, ?_, ?_⟩ <;> rw [if_pos (by omega)] <;> rfl

theorem put_full (out : List Nat) (u : List Nat) : put out ⟨u, u.length⟩ = out ++ u := by
  simp [put, List.take_of_length_le]

end ELC.Utf
