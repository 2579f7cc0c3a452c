import Verif.Numeral.Cycle
import Mathlib.Data.Nat.Prime.Basic
import Mathlib.FieldTheory.Finite.Basic
import Mathlib.Tactic.NormNum.Prime
/-!
Properties C17–C21, C54, C55: numbers and their texts.

`thr` is the length up to which a text is read into a `size_t`: the code computes it as
`trunc(log(2^64-1)/log(radix))`; the theorems hold for every `thr ≥ 1` with `radix^thr ≤ 2^64`.  `w` is the number of
bits of a digit of a big integer.
-/
namespace ELC.Numeral
open Spec ELC.Bigfloat ELC.Bigfloat.Spec

/-! ### the representations -/

/-- Consecutive digit characters make a usable representation. -/
theorem good_continuous (zero radix : Nat) (ps : List Nat) (h2 : 2 ≤ radix) (h : zero + radix ≤ 2 ^ 32) :
    Good (continuous zero radix ps) where
  two := h2
  valid i hi := by
    simp only [continuous, defaultSigns] at hi ⊢
    rw [Nat.mod_eq_of_lt (by omega)]; simp; omega
  index i hi := by
    simp only [continuous, defaultSigns] at hi ⊢
    rw [Nat.mod_eq_of_lt (a := zero + i) (by omega)]; omega
  only c hc := by
    simp only [continuous, defaultSigns] at hc ⊢
    simp at hc
    exact ⟨c - zero, by omega, by rw [Nat.mod_eq_of_lt (by omega)]; omega⟩

theorem getD_lt {t : List Nat} {i : Nat} (hi : i < t.length) : t.getD i 0 = t[i] := by
  simp [List.getD, hi]

/-- A table of at least two different characters makes a usable representation. -/
theorem good_table (t : List Nat) (e : Nat) (ps : List Nat) (h2 : 2 ≤ t.length) (hnd : t.Nodup) :
    Good (table t e ps) where
  two := h2
  valid i hi := by
    simp only [table, defaultSigns] at hi ⊢
    rw [getD_lt hi, List.isSome_idxOf?]
    exact List.getElem_mem hi
  index i hi := by
    simp only [table, defaultSigns] at hi ⊢
    rw [getD_lt hi]
    have : t.idxOf? t[i] = some i := by
      rw [List.idxOf?_eq_some_iff]
      refine ⟨hi, rfl, ?_⟩
      intro j hj he
      have := (List.Nodup.getElem_inj_iff hnd).1 he
      omega
    rw [this]; rfl
  only c hc := by
    simp only [table, defaultSigns] at hc ⊢
    rw [List.isSome_idxOf?] at hc
    obtain ⟨i, hi, he⟩ := List.getElem_of_mem hc
    exact ⟨i, hi, by rw [getD_lt hi, he]⟩

/-- What the theorems below ask of a representation. -/
structure Usable (R : Rep) : Prop where
  good : Good R
  small : R.radix < 2 ^ 64
  signs : DistinctSigns R
  primes : ∀ p ∈ R.primes, 2 ≤ p ∧ p ∣ R.radix

theorem usable_continuous (zero radix : Nat) (ps : List Nat) (h2 : 2 ≤ radix) (h : zero + radix ≤ 2 ^ 32)
    (hz : 0x2F < zero) (he : zero + radix ≤ 0x65 ∨ 0x65 < zero) (hps : ∀ p ∈ ps, 2 ≤ p ∧ p ∣ radix) :
    Usable (continuous zero radix ps) where
  good := good_continuous zero radix ps h2 h
  small := by show radix < 2 ^ 64; omega
  signs := by
    constructor <;> (try (intro i hi; simp only [continuous, defaultSigns] at hi ⊢
                          rw [Nat.mod_eq_of_lt (by omega)]; omega)) <;>
      simp [continuous, defaultSigns]
  primes := hps

/-- All built-in representations are usable. -/
theorem builtin_usable : Usable binary ∧ Usable trinary ∧ Usable octal ∧ Usable decimal ∧ Usable valanlottish ∧
    Usable hexadecimal ∧ Usable hexadecimalUpper := by
  refine ⟨?_, ?_, ?_, ?_, ?_, ?_, ?_⟩
  · exact usable_continuous _ _ _ (by decide) (by decide) (by decide) (by decide) (by decide)
  · exact usable_continuous _ _ _ (by decide) (by decide) (by decide) (by decide) (by decide)
  · exact usable_continuous _ _ _ (by decide) (by decide) (by decide) (by decide) (by decide)
  · exact usable_continuous _ _ _ (by decide) (by decide) (by decide) (by decide) (by decide)
  · have g := good_continuous 0xA000 1165 [5, 233] (by decide) (by decide)
    refine ⟨⟨g.1, g.2, g.3, g.4⟩, by decide, ?_, ?_⟩
    · constructor <;> (try (intro i hi; simp only [valanlottish, continuous, defaultSigns] at hi ⊢
                            rw [Nat.mod_eq_of_lt (by omega)]; omega)) <;>
        simp [valanlottish]
    · show ∀ p ∈ [5, 233], 2 ≤ p ∧ p ∣ 1165
      decide
  · refine ⟨good_table _ _ _ (by decide) (by decide), by decide, ?_, by decide⟩
    constructor <;> (try (unfold NotDigit; decide)) <;> decide
  · refine ⟨good_table _ _ _ (by decide) (by decide), by decide, ?_, by decide⟩
    constructor <;> (try (unfold NotDigit; decide)) <;> decide

/-! ### C17: native integers -/

/-- C17: `to_string` of a native unsigned number is its numeral, and `from_string_get` gives the number back without
touching the state. -/
theorem native_round_trip {R : Rep} (hR : Good R) (t n : Nat) (hn : n < 2 ^ t) (st : State) :
    ∃ s, toStringNative R n = some s ∧ Numeral R s n ∧ fromNative R t s st = (n, st) := by
  obtain ⟨s, h1, h2⟩ := toStringNative_spec hR.two n
  refine ⟨s, h1, h2, ?_⟩
  obtain ⟨ds, rfl, h3, h4, _⟩ := h2
  rw [fromNative_digits hR t h3, h4, Nat.mod_eq_of_lt hn]

/-- C17: there is only one numeral for a number, so `Numeral` pins the text down. -/
theorem numeral_determined {R : Rep} (hR : Good R) {s s' : List Nat} {n : Nat} (h : Numeral R s n)
    (h' : Numeral R s' n) : s = s' := numeral_unique hR.two h h'

example : toStringNative decimal 1904 = some [0x31, 0x39, 0x30, 0x34] := by
  obtain ⟨s, h1, h2⟩ := toStringNative_spec (R := decimal) (by decide) 1904
  rw [h1, numeral_determined builtin_usable.2.2.2.1.good h2
    ⟨[1, 9, 0, 4], rfl, by decide, by decide, by decide, by decide⟩]
  rfl

/-- C17: a single digit is read as its index. -/
theorem from_char_correct {R : Rep} (hR : Good R) (t i : Nat) (hi : i < R.radix) (hit : i < 2 ^ t) (st : State) :
    fromChar R t (R.getChar i) st = (i, st) := by
  simp only [fromChar, hR.valid i hi, if_true, hR.index i hi, Nat.mod_eq_of_lt hit]

/-- C55: the round trip of a signed number of `t` bits; for types as wide as `int` or wider the smallest value is
excluded. -/
theorem signed_round_trip_partial {R : Rep} (hR : Good R) (hS : DistinctSigns R) (t : Nat) (ht : 1 ≤ t) (v : Int)
    (hlo : -(2 ^ (t - 1) : Nat) ≤ v) (hhi : v < (2 ^ (t - 1) : Nat))
    (hmin : ¬ (32 ≤ t ∧ v = -(2 ^ (t - 1) : Nat))) (st : State) :
    ∃ s, toStringSigned R t v = some s ∧ Signed R s v ∧ fromSigned R t s st = some (v, st) := by
  have hpow : 2 ^ t = 2 ^ (t - 1) * 2 := by rw [← pow_succ]; congr 1; omega
  have habs : absSigned t v = some v.natAbs := by
    unfold absSigned
    by_cases hv : v < 0
    · rw [if_pos hv, if_neg hmin, Nat.mod_eq_of_lt (by omega)]
      congr 1; omega
    · rw [if_neg hv]; congr 1; omega
  obtain ⟨s, h1, ds, rfl, h3, h4, h5, h6⟩ := toStringNative_spec hR.two v.natAbs
  have hrd := fromNative_digits hR t h3 st
  rw [h4, Nat.mod_eq_of_lt (by omega)] at hrd
  by_cases hv : v < 0
  · refine ⟨R.negSign :: ds.map R.getChar, ?_, ?_, ?_⟩
    · rw [toStringSigned, habs]; simp only [Option.bind_some, h1, Option.map_some, if_pos hv]
    · have := Signed.neg (R := R) ds h3
      rw [h4, show -((v.natAbs : ℕ) : ℤ) = v by omega] at this
      exact this
    · simp only [fromSigned, if_true, hrd]
      congr 2
      unfold toSigned
      rw [Nat.mod_eq_of_lt (a := v.natAbs) (by omega), Nat.mod_mod, Nat.mod_eq_of_lt (by omega)]
      split <;> omega
  · refine ⟨ds.map R.getChar, ?_, ?_, ?_⟩
    · rw [toStringSigned, habs]; simp only [Option.bind_some, h1, Option.map_some, if_neg hv]
    · have := Signed.plain (R := R) ds h5 h3
      rw [h4, show ((v.natAbs : ℕ) : ℤ) = v by omega] at this
      exact this
    · cases ds with
      | nil => exact absurd rfl h5
      | cons d ds =>
        have hlt := h3 d (by simp)
        rw [List.map_cons] at hrd ⊢
        simp only [fromSigned, hS.neg d hlt, hS.pos d hlt, if_false, hrd]
        congr 2
        unfold toSigned
        rw [Nat.mod_eq_of_lt (by omega)]
        split <;> omega

example : (1 : Nat) ≤ 8 ∧ -(2 ^ (8 - 1) : Nat) ≤ (-128 : Int) ∧ (-128 : Int) < (2 ^ (8 - 1) : Nat) ∧
    ¬ (32 ≤ 8 ∧ (-128 : Int) = -(2 ^ (8 - 1) : Nat)) := by decide

/-- C55 is false of the program for the smallest value of a type as wide as `int` or wider: `abs` negates it in its
own type first, which overflows. -/
theorem signed_min_refuted (R : Rep) : toStringSigned R 32 (-2147483648) = none ∧
    toStringSigned R 64 (-9223372036854775808) = none := by
  constructor <;> rfl

/-- C55: of the numbers of a type with sign, the smallest one of a type as wide as `int` or wider is the only one without a text. -/
theorem signed_characterised {R : Rep} (hR : Good R) (hS : DistinctSigns R) (t : Nat) (ht : 1 ≤ t) (v : Int)
    (hlo : -(2 ^ (t - 1) : Nat) ≤ v) (hhi : v < (2 ^ (t - 1) : Nat)) :
    toStringSigned R t v = none ↔ 32 ≤ t ∧ v = -(2 ^ (t - 1) : Nat) := by
  constructor
  · intro h
    by_contra hc
    obtain ⟨s, hs, _⟩ := signed_round_trip_partial hR hS t ht v hlo hhi hc {}
    rw [h] at hs
    cases hs
  · intro h
    have hv : v < 0 := by
      have : 0 < 2 ^ (t - 1) := Nat.pow_pos (by decide)
      omega
    rw [toStringSigned, absSigned, if_pos hv, if_pos h]
    rfl

/-- C55: a leading plus sign is accepted and changes nothing. -/
theorem signed_plus {R : Rep} (hR : Good R) (hS : DistinctSigns R) (t : Nat) (ht : 1 ≤ t) (s : List Nat) (n : Nat)
    (hs : Denotes R s n) (hn : n < 2 ^ (t - 1)) (st : State) :
    fromSigned R t (R.posSign :: s) st = some ((n : Int), st) := by
  obtain ⟨ds, rfl, h1, h2⟩ := hs
  have hpow : 2 ^ t = 2 ^ (t - 1) * 2 := by rw [← pow_succ]; congr 1; omega
  simp only [fromSigned, hS.pos_neg, if_false, if_true, fromNative_digits hR t h1, h2]
  congr 2
  unfold toSigned
  rw [Nat.mod_mod, Nat.mod_eq_of_lt (by omega), if_pos hn]

/-! ### C18: big integers -/

/-- C18: the conversion by splitting writes the numeral of the number, which is what repeated division by the radix
writes. -/
theorem big_to_string_correct {R : Rep} (hR : Good R) (hr : R.radix < 2 ^ 64) (w : Nat) (hw : 0 < w) (n : Nat) :
    ∃ s, toStringBig R w n = some s ∧ Numeral R s n ∧ toStringBig R w n = toStringNative R n := by
  obtain ⟨s, h1, h2⟩ := toStringBig_spec (R := R) hw hR.two hr n
  obtain ⟨s', h3, h4⟩ := toStringNative_spec hR.two n
  exact ⟨s, h1, h2, by rw [h1, h3, numeral_unique hR.two h2 h4]⟩

/-- C18: reading by splitting gives the positional value. -/
theorem big_from_string_correct {R : Rep} (hR : Good R) (thr : Nat) (h1 : 1 ≤ thr) (h64 : R.radix ^ thr ≤ 2 ^ 64)
    (s : List Nat) (n : Nat) (hs : Denotes R s n) (st : State) (hst : st.error = false) :
    fromBig R thr s st = some (n, st) := by
  obtain ⟨ds, rfl, h2, rfl⟩ := hs
  exact fromBig_digits hR h1 h64 hst h2

/-- C18: the round trip of a big integer. -/
theorem big_round_trip {R : Rep} (hR : Good R) (hr : R.radix < 2 ^ 64) (w : Nat) (hw : 0 < w) (thr : Nat)
    (h1 : 1 ≤ thr) (h64 : R.radix ^ thr ≤ 2 ^ 64) (n : Nat) (st : State) (hst : st.error = false) :
    ∃ s, toStringBig R w n = some s ∧ fromBig R thr s st = some (n, st) := by
  obtain ⟨s, e1, ⟨ds, h2, h3, h4, _⟩, _⟩ := big_to_string_correct hR hr w hw n
  exact ⟨s, e1, big_from_string_correct hR thr h1 h64 s n ⟨ds, h2, h3, h4⟩ st hst⟩

-- the thresholds of the built-in representations
example : decimal.radix ^ 19 ≤ 2 ^ 64 ∧ binary.radix ^ 64 ≤ 2 ^ 64 ∧ hexadecimal.radix ^ 16 ≤ 2 ^ 64 ∧
    octal.radix ^ 21 ≤ 2 ^ 64 ∧ trinary.radix ^ 40 ≤ 2 ^ 64 ∧ valanlottish.radix ^ 6 ≤ 2 ^ 64 := by decide

/-! ### C19: errors -/

/-- C19: reading a native number of `t` bits reports an error exactly for a character that is not a digit;
otherwise the result is the positional value modulo the size of the type. -/
theorem from_string_error_iff {R : Rep} (hR : Good R) (t : Nat) (s : List Nat) (st : State)
    (hst : st.error = false) :
    ((fromNative R t s st).2.error = true ↔ ∃ c ∈ s, NotDigit R c) ∧
    ((fromNative R t s st).2.error = true → (fromNative R t s st).2.invalidChar = true) ∧
    (∀ n, Denotes R s n → fromNative R t s st = (n % 2 ^ t, st)) ∧
    ((∃ n, Denotes R s n) ∨ ∃ c ∈ s, NotDigit R c) := by
  have hden : ∀ n, Denotes R s n → fromNative R t s st = (n % 2 ^ t, st) := by
    rintro n ⟨ds, rfl, h1, rfl⟩
    exact fromNative_digits hR t h1 st
  rcases digits_or_invalid hR s with ⟨ds, h1, h2⟩ | ⟨c, hc, hv⟩
  · have hd : Denotes R s (positional R.radix ds) := ⟨ds, h1, h2, rfl⟩
    refine ⟨?_, ?_, hden, Or.inl ⟨_, hd⟩⟩
    · rw [hden _ hd, hst]
      constructor
      · intro h; simp at h
      · rintro ⟨c, hc, hn⟩
        rw [h1] at hc
        exact absurd hc (notDigit_not_mem hn h2)
    · rw [hden _ hd, hst]; intro h; simp at h
  · have hex : ∃ c ∈ s, NotDigit R c := ⟨c, hc, (invalid_iff_notDigit hR c).1 hv⟩
    have : fromNative R t s st = (0, { st with error := true, invalidChar := true }) :=
      fromLoop_invalid t s st ⟨c, hc, hv⟩ 0
    refine ⟨?_, ?_, hden, Or.inr hex⟩
    · rw [this]; simp only [true_iff]; exact hex
    · rw [this]; intro _; rfl

/-- C19: the same for a big integer, whatever the splitting; nothing is reduced. -/
theorem big_from_string_error_iff {R : Rep} (hR : Good R) (thr : Nat) (h1 : 1 ≤ thr) (h64 : R.radix ^ thr ≤ 2 ^ 64)
    (s : List Nat) (st : State) (hst : st.error = false) :
    ∃ r, fromBig R thr s st = some r ∧ (r.2.error = true ↔ ∃ c ∈ s, NotDigit R c) ∧
      (r.2.error = true → r = (0, { st with error := true, invalidChar := true })) ∧
      (∀ n, Denotes R s n → r = (n, st)) := by
  have hs := fromBig_spec hR h1 h64 st hst s
  rcases digits_or_invalid hR s with ⟨ds, g1, g2⟩ | ⟨c, hc, hv⟩
  · refine ⟨_, hs.1 ds g1 g2, ?_, ?_, ?_⟩
    · simp only [hst]
      constructor
      · intro h; simp at h
      · rintro ⟨c, hc, hn⟩
        rw [g1] at hc
        exact absurd hc (notDigit_not_mem hn g2)
    · simp only [hst]; intro h; simp at h
    · intro n hn
      have := big_from_string_correct hR thr h1 h64 s n hn st hst
      rw [hs.1 ds g1 g2] at this
      injection this
  · refine ⟨_, hs.2 ⟨c, hc, hv⟩, ?_, fun _ => rfl, ?_⟩
    · simp only [true_iff]; exact ⟨c, hc, (invalid_iff_notDigit hR c).1 hv⟩
    · rintro n ⟨ds, g1, g2, rfl⟩
      rw [g1] at hc
      exact absurd hc (notDigit_not_mem ((invalid_iff_notDigit hR c).1 hv) g2)

example : (fromNative decimal 8 [0x33, 0x30, 0x30] {}) = (300 % 256, {}) := by decide
example : (fromNative decimal 8 [0x33, 0x78] {}).2.error = true := by decide

/-! ### C21: denominators -/

/-- C21: the complement `c` and the `k` steps of the exponent satisfy `old·c = new·radix^k`, and no prime of the
table divides the new denominator. -/
theorem denominator_complement_correct {R : Rep} (hps : ∀ p ∈ R.primes, 2 ≤ p ∧ p ∣ R.radix) (den : Nat)
    (hd : 0 < den) (exp : ℤ) : ∃ den' c k, denominatorComplement R den exp = some (den', c, exp - (k : ℕ)) ∧
      den * c = den' * R.radix ^ k ∧ (∀ p ∈ R.primes, ¬ p ∣ den') ∧ den' ∣ den := by
  obtain ⟨d', c, k, h1, h2, h3, h4, h5⟩ := complementAll_spec R.primes hps den 1 exp hd
  exact ⟨d', c, k, h1, by rw [h2]; ring, h5, h4⟩

/-- C21: with a complete table the new denominator has no factor in common with the radix, and it is one exactly when
the fraction has a finite expansion. -/
theorem denominator_complement_complete {R : Rep} (hr : 2 ≤ R.radix)
    (hps : ∀ p, p ∈ R.primes ↔ Nat.Prime p ∧ p ∣ R.radix)
    (den : Nat) (hd : 0 < den) (exp : ℤ) : ∃ den' c k, denominatorComplement R den exp = some (den', c, exp - (k : ℕ)) ∧
      den * c = den' * R.radix ^ k ∧ Nat.Coprime den' R.radix ∧
      (den' = 1 ↔ ∃ m, den ∣ R.radix ^ m) := by
  obtain ⟨d', c, k, h1, h2, h3, h4⟩ := denominator_complement_correct (R := R)
    (fun p hp => ⟨((hps p).1 hp).1.two_le, ((hps p).1 hp).2⟩) den hd exp
  have hcop : Nat.Coprime d' R.radix := by
    apply Nat.Coprime.symm
    rw [Nat.coprime_iff_gcd_eq_one]
    by_contra hne
    obtain ⟨p, hp, hdiv⟩ := Nat.exists_prime_and_dvd hne
    exact h3 p ((hps p).2 ⟨hp, hdiv.trans (Nat.gcd_dvd_left _ _)⟩) (hdiv.trans (Nat.gcd_dvd_right _ _))
  refine ⟨d', c, k, h1, h2, hcop, ?_⟩
  constructor
  · intro h; subst h; exact ⟨k, c, by rw [h2]; ring⟩
  · rintro ⟨m, hm⟩
    have := (Nat.Coprime.pow_right m hcop).eq_one_of_dvd (h4.trans hm)
    exact this

example : ∀ p, p ∈ decimal.primes ↔ Nat.Prime p ∧ p ∣ decimal.radix := by
  intro p
  show p ∈ [2, 5] ↔ Nat.Prime p ∧ p ∣ 10
  constructor
  · intro h
    have : p = 2 ∨ p = 5 := by simpa using h
    rcases this with rfl | rfl <;> norm_num
  · rintro ⟨hp, hd⟩
    have hd' : p ∣ 2 * 5 := hd
    rcases (Nat.Prime.dvd_mul hp).1 hd' with h | h
    · have := (Nat.prime_dvd_prime_iff_eq hp Nat.prime_two).1 h; simp [this]
    · have := (Nat.prime_dvd_prime_iff_eq hp Nat.prime_five).1 h; simp [this]

/-! ### C54: fractions as text -/

/-- C54: every text of a fraction, with or without a point, a division and exponents, is read as the number it
denotes. -/
theorem fraction_from_string_correct {R : Rep} (hR : Usable R) (thr : Nat) (h1 : 1 ≤ thr)
    (h64 : R.radix ^ thr ≤ 2 ^ 64) (s : List Nat) (q : ℚ) (hs : Reads R s q) (st : State) (hst : st.error = false) :
    ∃ u st', fromFrac R thr s st = some (u, st') ∧ uvalue u = q ∧ Finite u ∧ st'.error = false :=
  fromFrac_reads hR.good hR.signs h1 h64 hs hst

/-- C54: the text of a finite fraction denotes that fraction. -/
theorem fraction_to_string_correct {R : Rep} (hR : Usable R) (w : Nat) (hw : 0 < w) (x : UFrac) (hx : Finite x) :
    ∃ s, toStringFrac R w x = some s ∧ Reads R s (uvalue x) :=
  toStringFrac_spec hR.good hR.small hw hR.primes hx

/-- C54: reading back the text of a finite fraction gives the same number. -/
theorem fraction_round_trip {R : Rep} (hR : Usable R) (w : Nat) (hw : 0 < w) (thr : Nat) (h1 : 1 ≤ thr)
    (h64 : R.radix ^ thr ≤ 2 ^ 64) (x : UFrac) (hx : Finite x) (st : State) (hst : st.error = false) :
    ∃ s u st', toStringFrac R w x = some s ∧ fromFrac R thr s st = some (u, st') ∧ uvalue u = uvalue x ∧
      Finite u ∧ st'.error = false := by
  obtain ⟨s, e1, e2⟩ := fraction_to_string_correct hR w hw x hx
  obtain ⟨u, st', f⟩ := fraction_from_string_correct hR thr h1 h64 s _ e2 st hst
  exact ⟨s, u, st', e1, f⟩

theorem reads_head {R : Rep} {c : Nat} (hd : NotDigit R c) (h1 : c ≠ R.fracSign) (h2 : c ≠ R.fracSep)
    (h3 : c ≠ R.expSep) {s : List Nat} {q : ℚ} (h : Reads R s q) : s.head? ≠ some c := by
  have dec : ∀ {s : List Nat} {q : ℚ}, Decimal R s q → s.head? ≠ some c := by
    intro s q h
    cases h with
    | int ds hds =>
      cases ds with
      | nil => simp
      | cons d ds => simpa using hd d (hds d (by simp))
    | point a b ha hb =>
      cases a with
      | nil => simpa using fun h => h1 h.symm
      | cons d ds => simpa using hd d (ha d (by simp))
  have frac : ∀ {s : List Nat} {q : ℚ}, Fraction R s q → s.head? ≠ some c := by
    intro s q h
    induction h with
    | decimal h => exact dec h
    | @div s t q p h _ _ _ =>
      cases s with
      | nil => simpa using fun h => h2 h.symm
      | cons c cs => simpa using dec h
  induction h with
  | fraction h => exact frac h
  | @exp s e q z h _ ih =>
    cases s with
    | nil => simpa using fun h => h3 h.symm
    | cons c cs => simpa using ih

theorem toStringFrac_ne_nil {R : Rep} (hR : Usable R) {w : Nat} {x : UFrac} (hw : 0 < w) (hx : Finite x) {thr : Nat}
    (h1 : 1 ≤ thr) (h64 : R.radix ^ thr ≤ 2 ^ 64) : toStringFrac R w x ≠ some [] := by
  intro h
  obtain ⟨s, u, st', e1, e2, e3, _, _⟩ := fraction_round_trip hR w hw thr h1 h64 x hx {} rfl
  rw [h] at e1; injection e1 with e1; subst e1
  have : fromFrac R thr [] {} = some (UFrac.ofNat 0, {}) := by
    simp [fromFrac, fromExponent, splitLast, splitFirst, fromFraction, fromDecimal, fromBig, fromNative, fromLoop]
  rw [this] at e2
  injection e2 with e2; injection e2 with e2 _; subst e2
  have hz : uvalue x = 0 := by rw [← e3]; simp [uvalue, UFrac.ofNat]
  have hden : (x.den : ℚ) ≠ 0 := by exact_mod_cast hx
  have hnum : x.num = 0 := by
    have := (div_eq_zero_iff.1 hz).resolve_right hden
    exact_mod_cast this
  unfold toStringFrac at h
  have : x.simplify.num = 0 := by unfold UFrac.simplify; simp only [hnum, Nat.zero_div]
  simp [this] at h

/-- C54: the round trip of a signed fraction, sign included. -/
theorem signed_fraction_round_trip {R : Rep} (hR : Usable R) (w : Nat) (hw : 0 < w) (thr : Nat) (h1 : 1 ≤ thr)
    (h64 : R.radix ^ thr ≤ 2 ^ 64) (x : Frac) (hx : Finite x.num) (st : State) (hst : st.error = false) :
    ∃ s u st', toStringFracSigned R w x = some s ∧ fromFracSigned R thr s st = some (u, st') ∧
      value u = value x ∧ u.neg = x.neg ∧ st'.error = false := by
  obtain ⟨s, u, st', e1, e2, e3, e4, e5⟩ := fraction_round_trip hR w hw thr h1 h64 x.num hx st hst
  have e6 : Reads R s (uvalue x.num) := by
    obtain ⟨s', g1, g2⟩ := fraction_to_string_correct hR w hw x.num hx
    rw [e1] at g1; injection g1 with g1; subst g1; exact g2
  have S := hR.signs
  by_cases hn : x.neg
  · refine ⟨R.negSign :: s, ⟨true, u⟩, st', by simp [toStringFracSigned, e1, hn], ?_, ?_, ?_, e5⟩
    · simp [fromFracSigned, e2]
    · simp [value, hn, e3]
    · simp [hn]
  · refine ⟨s, ⟨false, u⟩, st', by simp [toStringFracSigned, e1, hn], ?_, ?_, ?_, e5⟩
    · have hh := reads_head S.neg S.neg_frac S.neg_sep S.neg_exp e6
      have hp := reads_head S.pos S.pos_frac S.pos_sep S.pos_exp e6
      cases s with
      | nil => exact absurd e1 (toStringFrac_ne_nil hR hw hx h1 h64)
      | cons c cs =>
        have hh : c ≠ R.negSign := by simpa using hh
        have hp : c ≠ R.posSign := by simpa using hp
        simp [fromFracSigned, hh, hp, e2]
    · simp [value, hn, e3]
    · simp [hn]

example : Finite (⟨7, 12⟩ : UFrac) ∧ uvalue ⟨7, 12⟩ = 7 / 12 := by
  constructor
  · simp [Bigfloat.Spec.Finite]
  · norm_num [uvalue]

example : Reads decimal [0x32, 0x2E, 0x35, 0x65, 0x2D, 0x31] (1 / 4) := by
  have h := Reads.exp (.fraction (.decimal (Decimal.point (R := decimal) [2] [5] (by decide) (by decide))))
    (Signed.neg (R := decimal) [1] (by decide))
  have e : ((positional decimal.radix [2] : ℚ) + (positional decimal.radix [5] : ℚ) / (decimal.radix : ℚ) ^ [5].length) *
      (decimal.radix : ℚ) ^ (-(positional decimal.radix [1] : ℤ)) = 1 / 4 := by
    norm_num [positional, decimal, continuous, defaultSigns]
  rw [e] at h
  exact h

/-- C54 is false of a default-constructed `comn_numerical_representation_t`, whose fractional separator is the same
character as its fractional sign: thirteen tenths is written `1.3` and read back as a third. -/
theorem comn_default_refuted : ¬ DistinctSigns comnDefault ∧
    ∃ s u st', toStringFrac comnDefault 32 ⟨13, 10⟩ = some s ∧ fromFrac comnDefault 19 s {} = some (u, st') ∧
      st'.error = false ∧ uvalue u ≠ uvalue ⟨13, 10⟩ := by
  refine ⟨fun h => h.frac_sep rfl, [0x31, 0x2E, 0x33], ⟨1, 3⟩, { fractional := true }, ?_, ?_, rfl, ?_⟩
  · decide +kernel
  · decide +kernel
  · norm_num [uvalue]

/-! ### C20: `to_string.fractional` -/

/-- The text of an expansion: no brackets when nothing repeats. -/
def expansionText (R : Rep) (int : List Nat) (pre rep : List Nat) : List Nat :=
  if rep = [] then int ++ [R.fracSign] ++ pre.map R.getChar
  else int ++ [R.fracSign] ++ pre.map R.getChar ++ [R.repStart] ++ rep.map R.getChar ++ [R.repEnd]

/-- C20: so it is in all built-in representations. -/
theorem builtin_brackets : Brackets binary ∧ Brackets trinary ∧ Brackets octal ∧ Brackets decimal ∧ Brackets valanlottish ∧
    Brackets hexadecimal ∧ Brackets hexadecimalUpper := by
  refine ⟨?_, ?_, ?_, ?_, ?_, ?_, ?_⟩
  · constructor <;> (try (unfold NotDigit; decide)) <;> decide
  · constructor <;> (try (unfold NotDigit; decide)) <;> decide
  · constructor <;> (try (unfold NotDigit; decide)) <;> decide
  · constructor <;> (try (unfold NotDigit; decide)) <;> decide
  · constructor <;> (try (intro i hi; simp only [valanlottish, continuous, defaultSigns] at hi ⊢
                          rw [Nat.mod_eq_of_lt (by omega)]; omega)) <;>
      simp [valanlottish]
  · constructor <;> (try (unfold NotDigit; decide)) <;> decide
  · constructor <;> (try (unfold NotDigit; decide)) <;> decide

/-- Two texts cut at the first place where a character occurs have the same parts. -/
theorem cut_unique {c : Nat} {a a' b b' : List Nat} (h : c ∉ a) (h' : c ∉ a') (e : a ++ c :: b = a' ++ c :: b') :
    a = a' ∧ b = b' := by
  induction a generalizing a' with
  | nil =>
    cases a' with
    | nil => exact ⟨rfl, by simpa using e⟩
    | cons x xs =>
      simp only [List.nil_append, List.cons_append, List.cons.injEq] at e
      exact absurd (by rw [e.1]; exact List.mem_cons_self) h'
  | cons y ys ih =>
    cases a' with
    | nil =>
      simp only [List.nil_append, List.cons_append, List.cons.injEq] at e
      exact absurd (by rw [← e.1]; exact List.mem_cons_self) h
    | cons x xs =>
      simp only [List.cons_append, List.cons.injEq] at e
      obtain ⟨e1, e2⟩ := e
      have := ih (fun k => h (List.mem_cons_of_mem _ k)) (fun k => h' (List.mem_cons_of_mem _ k)) e2
      exact ⟨by rw [e1, this.1], this.2⟩

/-- C20: the text says which digits repeat: two expansions with the same text are the same. -/
theorem expansion_text_determines {R : Rep} (hR : Good R) (hb : Brackets R) {n n' : Nat} {int int' pre pre' rep rep' : List Nat}
    (hi : Numeral R int n) (hi' : Numeral R int' n') (hp : ∀ d ∈ pre ++ rep, d < R.radix)
    (hp' : ∀ d ∈ pre' ++ rep', d < R.radix) (e : expansionText R int pre rep = expansionText R int' pre' rep') :
    n = n' ∧ pre = pre' ∧ rep = rep' := by
  have inj : ∀ {l l' : List Nat}, (∀ d ∈ l, d < R.radix) → (∀ d ∈ l', d < R.radix) → l.map R.getChar = l'.map R.getChar →
      l = l' := by
    intro l
    induction l with
    | nil => intro l' _ _ k; cases l' with
      | nil => rfl
      | cons => simp at k
    | cons x xs ih => intro l' h h' k; cases l' with
      | nil => simp at k
      | cons y ys =>
        simp only [List.map_cons, List.cons.injEq] at k
        have hx := h x List.mem_cons_self
        have hy := h' y List.mem_cons_self
        have : x = y := by
          have a := hR.index x hx
          have b := hR.index y hy
          rw [← a, ← b, k.1]
        rw [this, ih (fun d hd => h d (List.mem_cons_of_mem _ hd)) (fun d hd => h' d (List.mem_cons_of_mem _ hd)) k.2]
  have hpre : ∀ d ∈ pre, d < R.radix := fun d h => hp d (List.mem_append_left _ h)
  have hpre' : ∀ d ∈ pre', d < R.radix := fun d h => hp' d (List.mem_append_left _ h)
  have hrep : ∀ d ∈ rep, d < R.radix := fun d h => hp d (List.mem_append_right _ h)
  have hrep' : ∀ d ∈ rep', d < R.radix := fun d h => hp' d (List.mem_append_right _ h)
  have nm : ∀ {c : Nat} {l : List Nat}, NotDigit R c → (∀ d ∈ l, d < R.radix) → c ∉ l.map R.getChar := by
    intro c l hc hl k
    obtain ⟨d, hd, rfl⟩ := List.mem_map.1 k
    exact hc d (hl d hd) rfl
  have ni : ∀ {s : List Nat} {m : Nat}, Numeral R s m → R.fracSign ∉ s := by
    rintro s m ⟨ds, rfl, h3, _⟩
    exact nm hb.point h3
  have cut : int = int' ∧ (if rep = [] then pre.map R.getChar else
      pre.map R.getChar ++ R.repStart :: (rep.map R.getChar ++ [R.repEnd])) = (if rep' = [] then pre'.map R.getChar else
      pre'.map R.getChar ++ R.repStart :: (rep'.map R.getChar ++ [R.repEnd])) := by
    refine cut_unique (c := R.fracSign) (ni hi) (ni hi') ?_
    unfold expansionText at e
    split_ifs at e ⊢ <;> simpa [List.append_assoc] using e
  clear e
  obtain ⟨rfl, e⟩ := cut
  have hn : n = n' := by
    obtain ⟨ds, k1, k2, k3, _⟩ := hi
    obtain ⟨ds', k1', k2', k3', _⟩ := hi'
    rw [← k3, ← k3', inj k2 k2' (k1.symm.trans k1')]
  refine ⟨hn, ?_⟩
  split_ifs at e with a b b
  · exact ⟨inj hpre hpre' e, by rw [a, b]⟩
  · exact absurd (by rw [e]; simp) (nm hb.start hpre)
  · exact absurd (by rw [← e]; simp) (nm hb.start hpre')
  · obtain ⟨e1, e2⟩ := cut_unique (nm hb.start hpre) (nm hb.start hpre') e
    exact ⟨inj hpre hpre' e1, inj hrep hrep' (List.append_cancel_right e2)⟩

-- a third and a finite expansion are told apart: 0.[3] and 0.3
example : expansionText decimal [0x30] [] [3] ≠ expansionText decimal [0x30] [3] [] := by decide

theorem toFractional_spec {R : Rep} (hR : Good R) (hr : R.radix < 2 ^ 64) (w : Nat) (hw : 0 < w) (x : UFrac)
    (hx : Finite x) (h0 : x.num ≠ 0) :
    ∃ int es o, (∀ d ∈ es, d < R.radix) ∧ Numeral R int (x.num / x.den) ∧
      toFractional R w x = some (match o with
        | none => int ++ [R.fracSign] ++ es.map R.getChar
        | some i => int ++ [R.fracSign] ++ (es.map R.getChar).take i ++ [R.repStart] ++ (es.map R.getChar).drop i ++
            [R.repEnd]) ∧
      (x.num % x.den) * R.radix ^ es.length = x.den * positional R.radix es +
        rem R.radix x.den (x.num % x.den) es.length ∧
      (∀ j < es.length, rem R.radix x.den (x.num % x.den) j ≠ 0) ∧
      ((List.range es.length).map fun i => rem R.radix x.den (x.num % x.den) (i + 1)).Nodup ∧
      ((o = none ∧ rem R.radix x.den (x.num % x.den) es.length = 0) ∨
        ∃ i, o = some i ∧ i < es.length ∧ rem R.radix x.den (x.num % x.den) es.length ≠ 0 ∧
          rem R.radix x.den (x.num % x.den) (es.length + 1) = rem R.radix x.den (x.num % x.den) (i + 1)) := by
  have hd : 0 < x.den := Nat.pos_of_ne_zero hx
  have hr2 := hR.two
  obtain ⟨int, e1, e2⟩ := toStringBig_spec (R := R) hw hR.two hr (x.num / x.den)
  have hrem0 : rem R.radix x.den (x.num % x.den) 0 = x.num % x.den := by simp [rem]
  obtain ⟨es, o, f1, f2, f3, f4, f5, f6⟩ := fractionalLoop_spec (R := R) (den := x.den) (n0 := x.num % x.den) (by omega) hd
    (x.den + 2) 0 [] (by omega) rfl (by simp) (by simp [rem]) (by simp) (by simp)
  refine ⟨int, es, o, f2, e2, ?_, f3, f4, f5, f6⟩
  rw [hrem0] at f1
  simp only [List.range_zero, List.map_nil] at f1
  rw [toFractional, if_neg h0, if_neg (by omega), e1]
  simp only [Option.bind_some, f1, Option.map_some]
  cases o <;> rfl

/-- C20, for every fraction: the conversion ends, the integer part is the numeral of the truncated value, and the
digits after the point are the first digits of the expansion. -/
theorem fractional_digits_correct {R : Rep} (hR : Good R) (hr : R.radix < 2 ^ 64) (w : Nat) (hw : 0 < w) (x : UFrac)
    (hx : Finite x) (h0 : x.num ≠ 0) :
    ∃ int pre rep, toFractional R w x = some (expansionText R int pre rep) ∧ Numeral R int (x.num / x.den) ∧
      (∀ d ∈ pre ++ rep, d < R.radix) ∧
      positional R.radix (pre ++ rep) = (x.num % x.den) * R.radix ^ (pre ++ rep).length / x.den := by
  have hd : 0 < x.den := Nat.pos_of_ne_zero hx
  obtain ⟨int, es, o, g1, g2, g3, g4, g5, g7, g6⟩ := toFractional_spec hR hr w hw x hx h0
  have hval : positional R.radix es = (x.num % x.den) * R.radix ^ es.length / x.den := by
    rw [g4, Nat.mul_add_div hd, Nat.div_eq_of_lt (show rem R.radix x.den (x.num % x.den) es.length < x.den from
      Nat.mod_lt _ hd), Nat.add_zero]
  rcases g6 with ⟨rfl, _⟩ | ⟨i, rfl, hi, _, _⟩
  · exact ⟨int, es, [], by rw [g3]; simp [expansionText], g2, by simpa using g1, by simpa using hval⟩
  · refine ⟨int, es.take i, es.drop i, ?_, g2, by simpa using g1, by simpa using hval⟩
    rw [g3]
    have : es.drop i ≠ [] := by
      intro h
      have := congrArg List.length h
      simp at this; omega
    simp [expansionText, this, List.map_take, List.map_drop]

/-- A fraction whose expansion is finite, or starts repeating right after the point. -/
def NoPrefix (r : Nat) (x : UFrac) : Prop :=
  (∃ m, x.den ∣ x.num * r ^ m) ∨ ∃ p, 0 < p ∧ x.den ∣ x.num * (r ^ p - 1)

/-- C20, exactly when it holds: the text denotes the fraction if and only if the expansion is finite or starts
repeating right after the point. -/
theorem fractional_characterised {R : Rep} (hR : Good R) (hr : R.radix < 2 ^ 64) (w : Nat) (hw : 0 < w) (x : UFrac)
    (hx : Finite x) (h0 : x.num ≠ 0) :
    ∃ int pre rep, toFractional R w x = some (expansionText R int pre rep) ∧ Numeral R int (x.num / x.den) ∧
      (∀ d ∈ pre ++ rep, d < R.radix) ∧
      (expansion R.radix (x.num / x.den) pre rep = uvalue x ↔ NoPrefix R.radix x) := by
  have hd : 0 < x.den := Nat.pos_of_ne_zero hx
  have hd0 : (x.den : ℚ) ≠ 0 := by exact_mod_cast hx
  obtain ⟨int, es, o, g1, g2, g3, g4, g5, g7, g6⟩ := toFractional_spec hR hr w hw x hx h0
  have hsum : uvalue x = ((x.num / x.den : ℕ) : ℚ) + ((x.num % x.den : ℕ) : ℚ) / x.den := by
    have := Nat.div_add_mod x.num x.den
    have : (x.num : ℚ) = x.den * ((x.num / x.den : ℕ) : ℚ) + ((x.num % x.den : ℕ) : ℚ) := by exact_mod_cast this.symm
    rw [uvalue, this]; field_simp
  have hexp : ∀ (n : ℕ) pre rep, expansion R.radix n pre rep = n + expansion R.radix 0 pre rep := by
    intro n pre rep; unfold expansion; push_cast; ring
  have hrem : ∀ m, rem R.radix x.den (x.num % x.den) m = x.num * R.radix ^ m % x.den := by
    intro m; unfold rem; rw [Nat.mod_mul_mod]
  rcases g6 with ⟨rfl, hz⟩ | ⟨i, rfl, hi, hnz, hc⟩
  · refine ⟨int, es, [], by rw [g3]; simp [expansionText], g2, by simpa using g1, ?_⟩
    refine iff_of_true ?_ (Or.inl ⟨es.length, Nat.dvd_of_mod_eq_zero (by rw [← hrem]; exact hz)⟩)
    rw [hz, Nat.add_zero] at g4
    have e : ((x.num % x.den : ℕ) : ℚ) * (R.radix : ℚ) ^ es.length = x.den * positional R.radix es := by
      exact_mod_cast g4
    have hp := radix_cast_ne hR es.length
    rw [hsum]
    unfold expansion
    simp only [positional_nil, List.length_nil, pow_zero, sub_self, mul_zero, div_zero, add_zero]
    congr 1
    rw [div_eq_div_iff hp hd0]
    linear_combination (-1 : ℚ) * e
  · have hlast : rem R.radix x.den (x.num % x.den) (i + 1) ≠ 0 := by
      by_cases hlast : i + 1 < es.length
      · exact g5 _ hlast
      · rw [show i + 1 = es.length by omega]; exact hnz
    have hper := fun t => rem_period (i := i + 1) (p := es.length - i) (by
      rw [show i + 1 + (es.length - i) = es.length + 1 by omega]; exact hc) t
    refine ⟨int, es.take i, es.drop i, ?_, g2, by simpa using g1, ?_⟩
    · rw [g3]
      have : es.drop i ≠ [] := by
        intro h
        have := congrArg List.length h
        simp at this; omega
      simp [expansionText, this, List.map_take, List.map_drop]
    · have := expansion_eq_iff hR.two hd hi (prefix_value hR.two hd (by omega) g1 g4) g4
      rw [hexp, hsum]
      rw [add_right_inj, this]
      constructor
      · intro h
        right
        -- an earlier remainder would have been found first, so the block starts right after the point
        have hi0 : i = 0 := by
          by_contra hi0
          have e : ((List.range es.length).map fun i => rem R.radix x.den (x.num % x.den) (i + 1))[es.length - 1]'(by
              simp; omega) = ((List.range es.length).map fun i => rem R.radix x.den (x.num % x.den) (i + 1))[i - 1]'(by
              simp; omega) := by
            simp only [List.getElem_map, List.getElem_range]
            rw [show es.length - 1 + 1 = es.length by omega, show i - 1 + 1 = i by omega, h]
          have := (List.Nodup.getElem_inj_iff g7).1 e
          omega
        subst hi0
        refine ⟨es.length, hi, ?_⟩
        rw [hrem, hrem, pow_zero, Nat.mul_one] at h
        rw [Nat.mul_sub, Nat.mul_one]
        exact (Nat.modEq_iff_dvd' (Nat.le_mul_of_pos_right _ (Nat.pow_pos (by have := hR.two; omega)))).1 h.symm
      · rintro (⟨m, hm⟩ | ⟨p, hp, hm⟩)
        · exfalso
          have hz : rem R.radix x.den (x.num % x.den) m = 0 := by
            rw [hrem]; exact Nat.mod_eq_zero_of_dvd hm
          have hge : m ≤ i + 1 + m * (es.length - i) := by
            have : m * 1 ≤ m * (es.length - i) := Nat.mul_le_mul_left _ (by omega)
            omega
          have := rem_zero_stays hz (i + 1 + m * (es.length - i) - m)
          rw [Nat.add_sub_cancel' hge, hper] at this
          exact hlast this
        · -- the remainders have period `p` from the start; go around until past the block
          have h1 : rem R.radix x.den (x.num % x.den) (0 + p) = rem R.radix x.den (x.num % x.den) 0 := by
            rw [hrem, hrem, Nat.zero_add, pow_zero, Nat.mul_one]
            rw [Nat.mul_sub, Nat.mul_one] at hm
            exact ((Nat.modEq_iff_dvd' (Nat.le_mul_of_pos_right _
              (Nat.pow_pos (by have := hR.two; omega)))).2 hm).symm
          have h2 := rem_period h1
          have h3 := rem_shift hc (p - 1)
          have h4 := rem_shift h1 es.length
          have h5 := rem_shift h1 i
          rw [show es.length + 1 + (p - 1) = 0 + p + es.length by omega, show i + 1 + (p - 1) = 0 + p + i by omega,
            h4, h5, Nat.zero_add, Nat.zero_add] at h3
          exact h3

/-- C20 for fractions whose denominator has no factor in common with the radix and for fractions with a finite
expansion: the text denotes the fraction exactly.  Missing: fractions whose expansion has digits before the block,
for which it is false (`fractional_refuted`). -/
theorem fractional_partial {R : Rep} (hR : Good R) (hr : R.radix < 2 ^ 64) (w : Nat) (hw : 0 < w) (x : UFrac)
    (hx : Finite x) (h0 : x.num ≠ 0)
    (h : Nat.Coprime x.den R.radix ∨ ∃ m, x.den ∣ x.num * R.radix ^ m) :
    ∃ int pre rep, toFractional R w x = some (expansionText R int pre rep) ∧ Numeral R int (x.num / x.den) ∧
      (∀ d ∈ pre ++ rep, d < R.radix) ∧ expansion R.radix (x.num / x.den) pre rep = uvalue x := by
  obtain ⟨int, pre, rep, h1, h2, h3, h4⟩ := fractional_characterised hR hr w hw x hx h0
  refine ⟨int, pre, rep, h1, h2, h3, h4.2 ?_⟩
  rcases h with h | h
  · right
    have hd : 0 < x.den := Nat.pos_of_ne_zero hx
    refine ⟨x.den.totient, Nat.totient_pos.2 hd, Dvd.dvd.mul_left ?_ _⟩
    exact (Nat.modEq_iff_dvd' (Nat.pow_pos (by have := hR.two; omega))).1 (Nat.ModEq.pow_totient h.symm).symm
  · exact Or.inl h

example : Nat.Coprime 7 decimal.radix := by decide
example : ∃ m, 40 ∣ 9 * decimal.radix ^ m := ⟨3, by decide⟩

/-- C20 is false of the program when digits come before the block: a sixth, 0.1666…, is written `0.[1]`, which
denotes a ninth. -/
theorem fractional_refuted : toFractional decimal 32 ⟨1, 6⟩ = some [0x30, 0x2E, 0x5B, 0x31, 0x5D] ∧
    [0x30, 0x2E, 0x5B, 0x31, 0x5D] = expansionText decimal [0x30] [] [1] ∧
    expansion 10 0 [] [1] ≠ uvalue ⟨1, 6⟩ := by
  refine ⟨?_, rfl, ?_⟩
  · have h0 : toStringBig decimal 32 0 = some [0x30] := by
      rw [toStringBig]; simp [toStringNative, toStringLoop, decimal, continuous, defaultSigns]
    rw [toFractional]
    simp only [show (1 / 6 : Nat) = 0 from rfl, h0]
    rfl
  · norm_num [expansion, positional, uvalue]

/-- C20: zero is written as a single zero digit, without a point. -/
theorem fractional_zero (R : Rep) (w : Nat) (x : UFrac) (h : x.num = 0) : toFractional R w x = some [R.getChar 0] := by
  rw [toFractional, if_pos h]

end ELC.Numeral
