import Verif.Bittext.Lemmas
/-! C207: the text of a bit set. -/
namespace ELC.Bittext
open ELC.Bits ELC.Numeral ELC.Numeral.Spec

/-- C207, every representation: the text has at least `N` characters, is a numeral of the number whose binary digits
are the stored bits, has no more digits than needed for `N` characters, and reading it and storing the number gives
the same bytes back. -/
theorem text_denotes {R : Rep} (hR : Good R) (hr : R.radix < 2 ^ 64) (w : Nat) (hw : 0 < w) (thr : Nat) (h1 : 1 ≤ thr)
    (h64 : R.radix ^ thr ≤ 2 ^ 64) (st : State) (hst : st.error = false) (N : Nat) (d : Bytes) :
    ∃ s v, bitsetText R w N d = some s ∧ (∀ i, v.testBit i = (bsGet d i).getD false) ∧ Denotes R s v ∧
      N ≤ s.length ∧ (N < s.length → Numeral R s v) ∧
      fromBig R thr s st = some (v, st) ∧ bsOfNat d.length v = d := by
  obtain ⟨ds, e1, h2, h3, h4, h5⟩ := text_digits hR hr hw N d
  have hden : Denotes R ((List.replicate (N - ds.length) 0 ++ ds).map R.getChar) (bigOf d) :=
    ⟨_, rfl, pad_lt hR.two h2, by rw [positional_replicate_zero, h3]⟩
  refine ⟨_, bigOf d, e1, bigOf_testBit d, hden, ?_, ?_, big_from_string_correct hR thr h1 h64 _ _ hden st hst,
    bsOfNat_bigOf d⟩
  · simp only [List.length_map, List.length_append, List.length_replicate]; omega
  · intro h
    simp only [List.length_map, List.length_append, List.length_replicate] at h
    rw [show N - ds.length = 0 by omega]
    exact ⟨ds, by simp, h2, h3, h4, h5⟩

example : Good decimal ∧ decimal.radix < 2 ^ 64 ∧ decimal.radix ^ 19 ≤ 2 ^ 64 :=
  ⟨builtin_usable.2.2.2.1.good, by decide, by decide⟩

/-- C207, in binary, for every contents: the characters are the stored bits, the last one bit 0; there are as many
as `N` exactly when no bit from `N` on is set, and otherwise the first one is the highest bit set. -/
theorem text_bits_characterised (w : Nat) (hw : 0 < w) (N : Nat) (hN : 0 < N) (d : Bytes) :
    ∃ s, bitsetText binary w N d = some s ∧ N ≤ s.length ∧
      (∀ i, i < s.length → s[s.length - 1 - i]? = some (if bsGet d i = some true then 0x31 else 0x30)) ∧
      (∀ i, s.length ≤ i → bsGet d i ≠ some true) ∧
      (s.length = N ↔ ∀ i, N ≤ i → bsGet d i ≠ some true) ∧
      (N < s.length → bsGet d (s.length - 1) = some true) := by
  obtain ⟨ds, e1, h2, h3, h4, h5⟩ := text_digits builtin_usable.1.good (by decide) hw N d
  have hlt := pad_lt (k := N - ds.length) (r := 2) (by decide) h2
  have hv : positional 2 (List.replicate (N - ds.length) 0 ++ ds) = bigOf d := by
    rw [positional_replicate_zero]; exact h3
  have hget : ∀ i, (bigOf d).testBit i = true ↔ bsGet d i = some true := by
    intro i
    rw [bigOf_testBit]
    cases bsGet d i with
    | none => simp
    | some b => cases b <;> simp
  have hlen : ((List.replicate (N - ds.length) 0 ++ ds).map binary.getChar).length = max N ds.length := by
    simp only [List.length_map, List.length_append, List.length_replicate]; omega
  have hup : bigOf d < 2 ^ ds.length := by rw [← h3]; exact positional_lt h2
  have hhigh : ∀ i, ds.length ≤ i → bsGet d i ≠ some true := by
    intro i hi h
    rw [← hget] at h
    have := Nat.testBit_lt_two_pow (Nat.lt_of_lt_of_le hup (Nat.pow_le_pow_right (by decide) hi))
    rw [this] at h; cases h
  have hchars : ∀ i, i < max N ds.length →
      ((List.replicate (N - ds.length) 0 ++ ds).map binary.getChar)[max N ds.length - 1 - i]? =
        some (if bsGet d i = some true then 0x31 else 0x30) := by
    intro i hi
    have hl : (List.replicate (N - ds.length) 0 ++ ds).length = max N ds.length := by
      simp only [List.length_append, List.length_replicate]; omega
    have := positional_bit _ hlt i (by omega)
    rw [hv, hl] at this
    rw [List.getElem?_map, this, Option.map_some]
    by_cases hb : bsGet d i = some true
    · rw [if_pos hb, (hget i).2 hb]; rfl
    · have : (bigOf d).testBit i = false := by
        cases h : (bigOf d).testBit i
        · rfl
        · exact absurd ((hget i).1 h) hb
      rw [if_neg hb, this]; rfl
  have htop : N < ds.length → bsGet d (ds.length - 1) = some true := by
    intro h
    have hne : ds.head? ≠ some 0 := by
      rcases h5 with rfl | h5
      · simp at h; omega
      · exact h5
    have hge : 2 ^ (ds.length - 1) ≤ bigOf d := by rw [← h3]; exact positional_ge h4 hne
    rw [← hget, Nat.testBit_eq_decide_div_mod_eq]
    have hd1 : bigOf d / 2 ^ (ds.length - 1) < 2 := by
      rw [Nat.div_lt_iff_lt_mul (by positivity), ← pow_succ', show ds.length - 1 + 1 = ds.length by omega]
      exact hup
    have hd2 : 1 ≤ bigOf d / 2 ^ (ds.length - 1) := by
      rw [Nat.le_div_iff_mul_le (by positivity)]; omega
    simp only [decide_eq_true_eq]; omega
  refine ⟨_, e1, by rw [hlen]; omega, ?_, ?_, ?_, ?_⟩
  · intro i hi; rw [hlen] at hi ⊢; exact hchars i hi
  · intro i hi; rw [hlen] at hi; exact hhigh i (by omega)
  · rw [hlen]
    constructor
    · intro h i hi; exact hhigh i (by omega)
    · intro h
      by_cases hc : N < ds.length
      · exact absurd (htop hc) (h _ (by omega))
      · omega
  · intro h; rw [hlen] at h ⊢
    rw [show max N ds.length = ds.length by omega]; exact htop (by omega)

/-- C207, in binary, proved for a set of `N` bits whose unused bits of the last byte are zero: the text has `N`
characters, and the `k`-th from the right is `1` exactly when bit `k` is set.  Missing: sets with unused bits set,
where it is false (next theorem). -/
theorem text_bits_partial (w : Nat) (hw : 0 < w) (N : Nat) (hN : 0 < N) (d : Bytes) (hd : d.length = dataSize N)
    (hclean : ∀ i, N ≤ i → bsGet d i ≠ some true) :
    ∃ s, bitsetText binary w N d = some s ∧ s.length = N ∧
      ∀ i, i < N → s[N - 1 - i]? = (bsGet d i).map fun b => if b then 0x31 else 0x30 := by
  obtain ⟨s, h1, _, h3, _, h5, _⟩ := text_bits_characterised w hw N hN d
  have hl := h5.2 hclean
  refine ⟨s, h1, hl, ?_⟩
  intro i hi
  have := h3 i (by omega)
  rw [hl] at this
  rw [this]
  have hin : i / 8 < d.length := by rw [hd]; unfold dataSize; omega
  rw [bsGet_eq, List.getElem?_eq_getElem hin, Option.map_some]
  cases (d[i / 8]).getLsbD (i % 8) <;> simp

-- a set of 12 bits holding 0xA05, of two bytes
example : (bsOfNat (dataSize 12) 0xA05).length = dataSize 12 ∧
    ∀ i, 12 ≤ i → bsGet (bsOfNat (dataSize 12) 0xA05) i ≠ some true := by
  refine ⟨rfl, fun i hi => ?_⟩
  by_cases h : i < 16
  · rw [bsOfNat_get _ _ _ (by show i < 8 * 2; omega)]
    have : i = 12 ∨ i = 13 ∨ i = 14 ∨ i = 15 := by omega
    rcases this with rfl | rfl | rfl | rfl <;> decide
  · rw [bsGet_eq, List.getElem?_eq_none (by rw [bsOfNat_length]; show 2 ≤ i / 8; omega)]; nofun

/-- C207: the sets made from a number below `2^N` have no unused bit set, so their text, and what
a text stream without a representation of its own for bit sets writes, is its `N` binary digits. -/
theorem text_of_number (w : Nat) (hw : 0 < w) (N : Nat) (hN : 0 < N) (n : Nat) (hn : n < 2 ^ N) :
    ∃ s, bitsetText binary w N (bsOfNat (dataSize N) n) = some s ∧
      streamText none w N (bsOfNat (dataSize N) n) = some s ∧ s.length = N ∧
      ∀ i, i < N → s[N - 1 - i]? = some (if n.testBit i then 0x31 else 0x30) := by
  obtain ⟨s, h1, h2, h3⟩ := text_bits_partial w hw N hN (bsOfNat (dataSize N) n) (bsOfNat_length _ _) (by
    intro i hi h
    by_cases h8 : i < 8 * dataSize N
    · rw [bsOfNat_get _ _ _ h8,
        Nat.testBit_lt_two_pow (Nat.lt_of_lt_of_le hn (Nat.pow_le_pow_right (by decide) hi))] at h
      cases h
    · rw [bsGet_eq, List.getElem?_eq_none (by rw [bsOfNat_length]; omega)] at h; cases h)
  refine ⟨s, h1, h1, h2, fun i hi => ?_⟩
  rw [h3 i hi, bitset_of_integer N n i hi, Option.map_some]

/-- C207 is false of the program for sets with unused bits: of a set of four bits made from zero, `~` sets all eight
bits of the byte, and the text has eight characters, not four. -/
theorem text_not_refuted (w : Nat) (hw : 0 < w) :
    bitsetText binary w 4 (bsNot (bsOfNat (dataSize 4) 0)) = some (List.replicate 8 0x31) := by
  have hd : bsNot (bsOfNat (dataSize 4) 0) = [255#8] := by decide
  rw [hd]
  obtain ⟨s, h1, h2, h3, h4, h5, h6⟩ := text_bits_characterised w hw 4 (by decide) [255#8]
  have hall : ∀ i, i < 8 → bsGet [255#8] i = some true := by decide
  have hlen : s.length = 8 := by
    have hge : 8 ≤ s.length := by
      by_contra hc
      exact h4 s.length (Nat.le_refl _) (hall _ (by omega))
    have := h6 (by omega)
    by_contra hc
    have hq : 1 ≤ (s.length - 1) / 8 := by omega
    rw [bsGet_eq, List.getElem?_eq_none (by simpa using hq)] at this
    cases this
  rw [h1]
  congr 1
  apply List.ext_getElem?
  intro i
  by_cases hi : i < 8
  · have := h3 (7 - i) (by omega)
    rw [hlen, show 8 - 1 - (7 - i) = i by omega, hall _ (by omega)] at this
    rw [this, List.getElem?_replicate, if_pos hi]; rfl
  · rw [List.getElem?_eq_none (by omega), List.getElem?_eq_none (by simp; omega)]

end ELC.Bittext
