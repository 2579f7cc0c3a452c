import Verif.Float.Round
import Verif.Numeral.Props
/-!
C92–C96: what a program relies on when it takes native floating point numbers apart, builds them, turns them into big
numbers and back, and reads them from text.  The formats and the meaning of their bits are in `Spec.lean`.
-/
namespace ELC.Float

open Spec
open ELC.Bigfloat (UFrac)

/-- The types whose constants are those of their format: `float`, `double`, `float128_t`. -/
def IsNative (I : Info) (f : Format) : Prop :=
  I = float32 ∧ f = binary32 ∨ I = float64 ∧ f = binary64 ∨ I = float128 ∧ f = binary128

theorem IsNative.agrees {I : Info} {f : Format} (h : IsNative I f) : Agrees I f := by
  rcases h with ⟨rfl, rfl⟩ | ⟨rfl, rfl⟩ | ⟨rfl, rfl⟩
  · constructor <;> decide +kernel
  · constructor <;> decide +kernel
  · constructor <;> decide +kernel

theorem native32 : IsNative float32 binary32 := Or.inl ⟨rfl, rfl⟩
theorem native64 : IsNative float64 binary64 := Or.inr (Or.inl ⟨rfl, rfl⟩)
theorem native128 : IsNative float128 binary128 := Or.inr (Or.inr ⟨rfl, rfl⟩)

instance (f : Format) (d : Nat) : Decidable (Finite f d) := inferInstanceAs (Decidable (_ ≠ _))
instance (f : Format) (d : Nat) : Decidable (Plain f d) := inferInstanceAs (Decidable (_ ∧ _))

variable {I : Info} {f : Format}

/-! ### C92 -/

/-- C92: digits and exponent of every finite `float`, `double` and `float128_t` are those of the number. -/
theorem decompose_partial (h : IsNative I f) {d : Nat} (hd : Finite f d) :
    (getPrecision I d : ℚ) * 2 ^ getExponent I d = magnitude f d ∧ getPrecision I d < 2 ^ (f.p + 1) :=
  ⟨decompose_eq h.agrees hd, getPrecision_lt h.agrees d⟩

/-- `-2.5`. -/
example : Finite binary64 0xC004000000000000 ∧ getPrecision float64 0xC004000000000000 = 5 * 2 ^ 50 ∧
    getExponent float64 0xC004000000000000 = -51 := by decide +kernel

/-- C92 fails for the two types of 16 bits: `1` comes apart as `3072·2^-19` and `384·2^-72`. -/
theorem decompose_refuted :
    (Plain binary16 0x3C00 ∧ magnitude binary16 0x3C00 = 1 ∧
      (getPrecision float16 0x3C00 : ℚ) * 2 ^ getExponent float16 0x3C00 ≠ 1) ∧
    (Plain Spec.bfloat16 0x3F80 ∧ magnitude Spec.bfloat16 0x3F80 = 1 ∧
      (getPrecision Float.bfloat16 0x3F80 : ℚ) * 2 ^ getExponent Float.bfloat16 0x3F80 ≠ 1) := by
  have a1 : getPrecision float16 0x3C00 = 3072 := by decide +kernel
  have a2 : getExponent float16 0x3C00 = -19 := by decide +kernel
  have b1 : getPrecision Float.bfloat16 0x3F80 = 384 := by decide +kernel
  have b2 : getExponent Float.bfloat16 0x3F80 = -72 := by decide +kernel
  refine ⟨⟨by decide, ?_, ?_⟩, ⟨by decide, ?_, ?_⟩⟩
  · norm_num [magnitude, field, fraction, binary16]
  · rw [a1, a2]; norm_num
  · norm_num [magnitude, field, fraction, Spec.bfloat16]
  · rw [b1, b2]; norm_num

/-- C92, exactly what the two types of 16 bits are taken for: formats with one more digit of the fraction and one less of the
exponent. -/
theorem decompose16_characterised (d : Nat) :
    ((getPrecision float16 d : ℚ) * 2 ^ getExponent float16 d = magnitude ⟨16, 11, 15⟩ d ∧ getPrecision float16 d < 2 ^ 12) ∧
    ((getPrecision Float.bfloat16 d : ℚ) * 2 ^ getExponent Float.bfloat16 d = magnitude ⟨16, 8, 127⟩ d ∧
      getPrecision Float.bfloat16 d < 2 ^ 9) := by
  have key : ∀ (I : Info) (p b : Nat), I.mask = 2 ^ p - 1 → I.base = 2 ^ p → I.bit = p → I.diff = b → I.emin = 1 - (b : Int) →
      I.expMask = 2 ^ 15 - 1 → I.expBits = 8 → I.width = 16 → 8 ≤ p → p < 15 → 15 ≤ b → b ≤ 127 →
      (getPrecision I d : ℚ) * 2 ^ getExponent I d = magnitude ⟨16, p, b⟩ d ∧ getPrecision I d < 2 ^ (p + 1) := by
    intro I p b h1 h2 h3 h4 h5 h6 h7 h8 p1 p2 b1 b2
    have hlt : d % 2 ^ p < 2 ^ p := Nat.mod_lt _ (Nat.two_pow_pos _)
    have hW : 2 ^ (p + 1) ≤ 2 ^ 16 := Nat.pow_le_pow_right (by norm_num) (by omega)
    rw [pow_succ] at hW ⊢
    have hfl : d / 2 ^ p % 2 ^ (15 - p) < 2 ^ 7 :=
      Nat.lt_of_lt_of_le (Nat.mod_lt _ (Nat.two_pow_pos _)) (Nat.pow_le_pow_right (by norm_num) (by omega))
    have hb : baseExponent I d = d / 2 ^ p % 2 ^ (15 - p) := by
      unfold baseExponent
      rw [h6, Nat.and_two_pow_sub_one_eq_mod, h3, Nat.shiftRight_eq_div_pow, h7]
      have e : d % 2 ^ 15 / 2 ^ p = d / 2 ^ p % 2 ^ (15 - p) := (mod_field ⟨16, p, b⟩ d (by simp; omega)).1
      rw [e, Nat.mod_eq_of_lt (by omega)]
    have hp : getPrecision I d = if d / 2 ^ p % 2 ^ (15 - p) = 0 then d % 2 ^ p else 2 ^ p + d % 2 ^ p := by
      unfold getPrecision baseNum nativePrecision
      rw [hb, h1, h2, h8, Nat.and_two_pow_sub_one_eq_mod]
      by_cases h0 : d / 2 ^ p % 2 ^ (15 - p) = 0
      · rw [if_neg (by omega), if_pos h0, Nat.mod_eq_of_lt (by omega)]; omega
      · rw [if_pos h0, if_neg h0, Nat.mod_eq_of_lt (by omega)]; omega
    have he : getExponent I d = (if d / 2 ^ p % 2 ^ (15 - p) = 0 then 1 else ((d / 2 ^ p % 2 ^ (15 - p) : Nat) : Int)) - b - p := by
      unfold getExponent nativeExponent
      dsimp only
      rw [hb, h3, h5, h4, h7]
      split
      · rw [toSigned_id (by decide) (by norm_num; omega) (by norm_num; omega)]
      · generalize d / 2 ^ p % 2 ^ (15 - p) = x at hfl ⊢
        rw [toSigned_sub, toSigned_id (by decide) (by norm_num; omega) (by norm_num; omega)]
    constructor
    · rw [hp, he]
      unfold magnitude field fraction
      simp only [show 16 - 1 - p = 15 - p by omega]
      split
      · rfl
      · push_cast; rfl
    · rw [hp]; split <;> omega
  exact ⟨key float16 11 15 rfl rfl rfl rfl rfl rfl rfl rfl (by decide) (by decide) (by decide) (by decide),
    key Float.bfloat16 8 127 rfl rfl rfl rfl rfl rfl rfl rfl (by decide) (by decide) (by decide) (by decide)⟩

/-! ### C93 -/

/-- C93: in the range of the format `make_float` gives the greatest number that is not above `n·2^e`. -/
theorem make_float_partial (h : IsNative I f) {n : Nat} (hn : n < 2 ^ f.width) {e : ℤ}
    (hlow : (2 : ℚ) ^ (2 - f.bias - f.width : ℤ) ≤ n * 2 ^ e) (hhigh : (n : ℚ) * 2 ^ e < 2 ^ (f.bias + 1 : ℤ)) :
    ∃ r, makeFloat I n e = .done r ∧ Down f (n * 2 ^ e) r := makeFloat_down h.agrees hn hlow hhigh

/-- C93: a number of the format is made exactly. -/
theorem make_float_exact_partial (h : IsNative I f) {n : Nat} (hn : n < 2 ^ f.width) {e : ℤ} {d : Nat}
    (hd : Plain f d) (h0 : d ≠ 0) (he : (n : ℚ) * 2 ^ e = magnitude f d) : makeFloat I n e = .done d :=
  makeFloat_exact h.agrees hn hd h0 he

/-- C93: taken apart and put together, a number is the same. -/
theorem make_get_correct (h : IsNative I f) {d : Nat} (hd : Plain f d) :
    makeFloat I (getPrecision I d) (getExponent I d) = .done d := by
  have hr := h.agrees.room
  by_cases h0 : d = 0
  · subst h0
    have hp : getPrecision I 0 = 0 := by
      rw [getPrecision_eq h.agrees, if_pos (by unfold field; simp)]; unfold fraction; simp
    rw [hp, makeFloat_zero h.agrees, getExponent_eq h.agrees hd.2, if_neg, ]
    rw [if_pos (by unfold field; simp)]
    omega
  · exact makeFloat_exact h.agrees
      (Nat.lt_of_lt_of_le (getPrecision_lt h.agrees d) (Nat.pow_le_pow_right (by norm_num) (by omega))) hd h0
      (decompose_eq h.agrees hd.2)

example : Plain binary64 1 ∧ Plain binary64 0x3FB999999999999A ∧ makeFloat float64 7 (-3) = .done 0x3FEC000000000000 := by
  decide +kernel

/-- C93 fails above the range: every number too great for the format becomes zero, not infinity. -/
theorem make_float_overflow_refuted (h : IsNative I f) {n : Nat} (hn : n < 2 ^ f.width) {e : ℤ}
    (hq : (2 : ℚ) ^ (f.bias + 1 : ℤ) ≤ n * 2 ^ e) : makeFloat I n e = .done 0 := makeFloat_overflow h.agrees hn hq

/-- C93 fails below the range: far below, the behaviour is undefined. -/
theorem make_float_underflow_refuted (h : IsNative I f) {n : Nat} (h0 : n ≠ 0) (hn : n < 2 ^ f.width) {e : ℤ}
    (hq : (n : ℚ) * 2 ^ e < 2 ^ (2 - f.bias - f.width : ℤ)) : makeFloat I n e = .undefined :=
  makeFloat_undefined h.agrees h0 hn hq

/-- `1·2^1024` and `1·2^-1085` as `double`. -/
example : makeFloat float64 1 1024 = .done 0 ∧ makeFloat float64 1 (-1085) = .done 0 ∧
    makeFloat float64 1 (-1086) = .undefined := by decide +kernel

/-- C93: zero is made for every exponent that is not far below the range. -/
theorem make_float_zero_characterised (h : IsNative I f) (e : ℤ) :
    makeFloat I 0 e = if (e : ℤ) ≤ 2 - f.bias - f.width then .undefined else .done 0 := by
  rw [makeFloat_zero h.agrees]
  by_cases he : e ≤ (2 - f.bias - f.width : ℤ)
  · rw [if_pos he, if_pos (by omega)]
  · rw [if_neg he, if_neg (by omega)]

/-- C93 fails for the types of 16 bits: `1·2^0` becomes `32768` and `2^127`. -/
theorem make_float_small_refuted :
    makeFloat float16 1 0 = .done 0x7800 ∧ magnitude binary16 0x7800 = 32768 ∧
    makeFloat Float.bfloat16 1 0 = .done 0x7F00 ∧ magnitude Spec.bfloat16 0x7F00 = 2 ^ 127 := by
  refine ⟨by decide +kernel, ?_, by decide +kernel, ?_⟩
  · norm_num [magnitude, field, fraction, binary16]
  · norm_num [magnitude, field, fraction, Spec.bfloat16]

/-! ### C94 -/

/-- C94: a fraction that is a number of the format converts to that number. -/
theorem to_native_exact_partial (h : IsNative I f) {a : UFrac} (ha : a.den ≠ 0) {d : Nat} (hd : Plain f d) (h0 : d ≠ 0)
    (he : (a.num : ℚ) / a.den = magnitude f d) : toFloat I a = .done d := toFloat_exact h.agrees ha hd h0 he

example : toFloat float64 ⟨3, 8⟩ = .done 0x3FD8000000000000 ∧ Plain binary64 0x3FD8000000000000 := by decide +kernel

/-- C94: a fraction in the range whose leading digits (as many as the type has bits) are not all ones converts to one
of the two numbers next to it, and to the upper one only when the error is at most one part in `2^(width-1)`. -/
theorem to_native_neighbour_partial (h : IsNative I f) {a : UFrac} (hn : a.num ≠ 0) (ha : a.den ≠ 0)
    (hones : ¬ Ones f.width (a.num / a.den)) (hlow : (2 : ℚ) ^ (2 - f.bias - f.width : ℤ) ≤ a.num / a.den)
    (hhigh : (a.num : ℚ) / a.den < 2 ^ (f.bias + 1 : ℤ)) :
    ∃ r, toFloat I a = .done r ∧ (Down f (a.num / a.den) r ∨
      (Up f (a.num / a.den) r ∧ magnitude f r ≤ a.num / a.den + a.num / a.den * 2 ^ (1 - f.width : ℤ))) :=
  (toFloat_cases h.agrees hn ha hones).2.2 hlow hhigh

/-- One third meets the hypotheses. -/
example : ¬ Ones binary64.width ((1 : Nat) / (3 : Nat) : ℚ) ∧
    (2 : ℚ) ^ (2 - binary64.bias - binary64.width : ℤ) ≤ (1 : Nat) / (3 : Nat) ∧
    toFloat float64 ⟨1, 3⟩ = .done 0x3FD5555555555555 := by
  refine ⟨not_ones_small (by decide) (by decide) (by decide) (by decide) (by decide), ?_, by decide +kernel⟩
  have : (2 : ℚ) ^ (2 - binary64.bias - binary64.width : ℤ) ≤ 2 ^ (-2 : ℤ) := zpow_le_iff.2 (by simp [binary64])
  norm_num at this ⊢
  linarith

/-- C94 fails: the result is not the nearest number; one tenth converts to a number that another one is nearer to. -/
theorem to_native_nearest_refuted :
    toFloat float64 ⟨1, 10⟩ = .done 0x3FB9999999999999 ∧ ¬ Nearest binary64 (1 / 10) 0x3FB9999999999999 := by
  refine ⟨by decide +kernel, fun hc => ?_⟩
  have h1 := hc.2 0x3FB999999999999A (by decide)
  have e1 : magnitude binary64 0x3FB9999999999999 = 0x19999999999999 / 2 ^ 56 := by
    norm_num [magnitude, field, fraction, binary64]
  have e2 : magnitude binary64 0x3FB999999999999A = 0x1999999999999A / 2 ^ 56 := by
    norm_num [magnitude, field, fraction, binary64]
  rw [e1, e2] at h1
  norm_num [abs_of_pos, abs_of_neg] at h1

/-- C94 fails: an integer with more binary digits than the type has bits, all the leading ones set, becomes zero. -/
theorem to_native_ones_refuted (h : IsNative I f) {N c : Nat} (h1 : (2 ^ f.width - 1) * 2 ^ c < N)
    (h2 : N < 2 ^ f.width * 2 ^ c) : toFloat I ⟨N, 1⟩ = .done 0 := toFloat_ones h.agrees h1 h2

/-- `2^65-1` as `double`. -/
example : (2 ^ binary64.width - 1) * 2 ^ 1 < 2 ^ 65 - 1 ∧ 2 ^ 65 - 1 < 2 ^ binary64.width * 2 ^ 1 ∧
    toFloat float64 ⟨2 ^ 65 - 1, 1⟩ = .done 0 := by decide +kernel

/-- C94 fails above the range: the result is zero. -/
theorem to_native_overflow_refuted (h : IsNative I f) {a : UFrac} (hn : a.num ≠ 0) (ha : a.den ≠ 0)
    (hones : ¬ Ones f.width (a.num / a.den)) (hq : (2 : ℚ) ^ (f.bias + 1 : ℤ) ≤ a.num / a.den) :
    toFloat I a = .done 0 := (toFloat_cases h.agrees hn ha hones).2.1 hq

/-- C94 fails below the range: the behaviour is undefined. -/
theorem to_native_underflow_refuted (h : IsNative I f) {a : UFrac} (hn : a.num ≠ 0) (ha : a.den ≠ 0)
    (hones : ¬ Ones f.width (a.num / a.den)) (hq : (a.num : ℚ) / a.den < 2 ^ (2 - f.bias - f.width : ℤ)) :
    toFloat I a = .undefined := (toFloat_cases h.agrees hn ha hones).1 hq

example : toFloat float64 ⟨2 ^ 1024, 1⟩ = .done 0 ∧ toFloat float64 ⟨1, 2 ^ 1086⟩ = .undefined := by decide +kernel

/-- C94: what `0/d` converts to. -/
theorem to_native_zero_characterised (h : IsNative I f) {d : Nat} (hd : d ≠ 0) :
    toFloat I ⟨0, d⟩ = if -(ctz d : ℤ) ≤ 2 - f.bias - f.width then .undefined else .done 0 := by
  rw [toFloat_zero h.agrees hd, make_float_zero_characterised h]

/-! ### C95 -/

/-- C95: the big integer of a native number is its integer part. -/
theorem to_big_correct (h : IsNative I f) {v : Nat} (hv : Plain f v) : (toBig I v : ℤ) = ⌊magnitude f v⌋ := by
  have ho := one_pos h.agrees
  have hoq : (0 : ℚ) < one I := by exact_mod_cast ho
  rw [toBig_eq h.agrees hv, magnitude_one h.agrees _ hv.1, eq_comm, Int.floor_eq_iff, Int.cast_natCast]
  have h1 := Nat.div_mul_le_self (units f.p v) (one I)
  have h2 := Nat.lt_div_mul_add ho (a := units f.p v)
  rw [le_div_iff₀ hoq, div_lt_iff₀ hoq, add_mul, one_mul]
  exact ⟨by exact_mod_cast h1, by exact_mod_cast h2⟩

example : Plain binary64 0x40091EB851EB851F ∧ toBig float64 0x40091EB851EB851F = 3 := by decide +kernel

/-- C95: the fraction of a native number is in lowest terms, and is the number itself; or, for a number below one, a
fraction with a numerator below 128 and a denominator of at most 2^17 that the number is the rounding of. -/
theorem to_fraction_characterised (h : IsNative I f) {v : Nat} (hv : Plain f v) {a : UFrac}
    (ha : toFraction I v = .done a) :
    a.den ≠ 0 ∧ Nat.Coprime a.num a.den ∧ ((a.num : ℚ) / a.den = magnitude f v ∨
      (magnitude f v < 1 ∧ 0 < a.num ∧ a.num < 2 ^ 7 ∧ a.den ≤ 2 ^ 17 ∧ Rounded f (a.num / a.den) v)) :=
  toFraction_done h.agrees hv ha

/-- C95: from one on the fraction is the number. -/
theorem to_fraction_exact_partial (h : IsNative I f) {v : Nat} (hv : Plain f v) (h1 : 1 ≤ magnitude f v) {a : UFrac}
    (ha : toFraction I v = .done a) : a.den ≠ 0 ∧ (a.num : ℚ) / a.den = magnitude f v := by
  obtain ⟨h2, _, h3 | ⟨h3, _⟩⟩ := toFraction_done h.agrees hv ha
  · exact ⟨h2, h3⟩
  · linarith

/-- C95: there is a fraction when the part after the point is zero or not below `2^-57`. -/
theorem to_fraction_defined_partial (h : IsNative I f) {v : Nat} (hv : Plain f v)
    (hf : Int.fract (magnitude f v) = 0 ∨ (2 : ℚ) ^ (-57 : ℤ) ≤ Int.fract (magnitude f v)) :
    ∃ a, toFraction I v = .done a := by
  have ho : (0 : ℚ) < one I := by exact_mod_cast one_pos h.agrees
  rw [fract_eq h.agrees hv] at hf
  apply toFraction_defined h.agrees
  rcases hf with hf | hf
  · left
    rw [div_eq_zero_iff, Nat.cast_eq_zero, Nat.cast_eq_zero] at hf
    have := one_pos h.agrees
    omega
  · right
    rw [le_div_iff₀ ho, zpow_neg, inv_mul_le_iff₀ (by norm_num)] at hf
    have h57 : ((2 : ℚ) ^ (57 : ℤ)) = ((2 ^ 57 : Nat) : ℚ) := by norm_num
    rw [h57] at hf
    rw [Nat.mul_comm]
    exact_mod_cast hf

/-- `0.1` and `1.1`. -/
example : Plain binary64 0x3FF199999999999A ∧ toFraction float64 0x3FF199999999999A =
    .done ⟨2476979795053773, 2251799813685248⟩ := by decide +kernel

/-- C95 fails: the fraction of the `double` written `0.1` is one tenth, which that number is not. -/
theorem to_fraction_exact_refuted :
    toFraction float64 0x3FB999999999999A = .done ⟨1, 10⟩ ∧ magnitude binary64 0x3FB999999999999A ≠ 1 / 10 := by
  refine ⟨by decide +kernel, ?_⟩
  norm_num [magnitude, field, fraction, binary64]

/-- C95 fails: for every positive number up to `2^-64` the behaviour is undefined. -/
theorem to_fraction_tiny_refuted (h : IsNative I f) {v : Nat} (hv : Plain f v) (h0 : v ≠ 0)
    (hs : magnitude f v ≤ 2 ^ (-64 : ℤ)) : toFraction I v = .undefined := by
  have ho : (0 : ℚ) < one I := by exact_mod_cast one_pos h.agrees
  apply toFraction_undefined h.agrees h0 hv
  rw [magnitude_one h.agrees _ hv.1, div_le_iff₀ ho, zpow_neg, inv_mul_eq_div, le_div_iff₀ (by norm_num)] at hs
  have h64 : ((2 : ℚ) ^ (64 : ℤ)) = ((2 ^ 64 : Nat) : ℚ) := by norm_num
  rw [h64] at hs
  exact_mod_cast hs

/-- `1e-20`. -/
example : Plain binary64 0x3BC79CA10C924223 ∧ toFraction float64 0x3BC79CA10C924223 = .undefined := by decide +kernel

/-- C95: there and back the number is at most one place off; zero and the numbers from one on come back unchanged. -/
theorem round_trip_partial (h : IsNative I f) {v : Nat} (hv : Plain f v) {a : UFrac} (ha : toFraction I v = .done a) :
    ∃ r, toFloat I a = .done r ∧ (r = v ∨ r + 1 = v ∨ r = v + 1) ∧ (v = 0 ∨ 1 ≤ magnitude f v → r = v) :=
  roundtrip_eq h.agrees hv ha

/-- C95 fails: there and back `0.1` is another number. -/
theorem round_trip_refuted :
    ∃ a r, Plain binary64 0x3FB999999999999A ∧ toFraction float64 0x3FB999999999999A = .done a ∧
      toFloat float64 a = .done r ∧ r ≠ 0x3FB999999999999A :=
  ⟨⟨1, 10⟩, 0x3FB9999999999999, by decide, by decide +kernel, by decide +kernel, by decide⟩

/-! ### C96 -/

/-- to_string/_body.hpp:564-607 `from_string_get<T>` for a text other than NaN and infinity, without a sign. -/
def readFloat (I : Info) (R : Numeral.Rep) (thr : Nat) (s : List Nat) (st : Numeral.State) : Outcome Nat × Numeral.State :=
  match Numeral.fromFrac R thr s st with
  | none => (.undefined, st)
  | some (u, st') => (toFloat I u, st')

/-- C96: a text that denotes a positive number of the format is read as that number. -/
theorem read_exact_partial (h : IsNative I f) {R : Numeral.Rep} (hR : Numeral.Usable R) (thr : Nat) (h1 : 1 ≤ thr)
    (h64 : R.radix ^ thr ≤ 2 ^ 64) {s : List Nat} {d : Nat} (hd : Plain f d) (h0 : d ≠ 0)
    (hs : Numeral.Spec.Reads R s (magnitude f d)) (st : Numeral.State) (hst : st.error = false) :
    ∃ st', readFloat I R thr s st = (.done d, st') ∧ st'.error = false := by
  obtain ⟨u, st', e1, e2, e3, e4⟩ := Numeral.fraction_from_string_correct hR thr h1 h64 s _ hs st hst
  refine ⟨st', ?_, e4⟩
  unfold readFloat
  rw [e1]
  dsimp only
  rw [toFloat_exact h.agrees e3 hd h0 e2]

/-- C96: a text that denotes a positive number in the range is read as one of the two numbers of the format next to it,
unless its leading binary digits are all ones. -/
theorem read_neighbour_partial (h : IsNative I f) {R : Numeral.Rep} (hR : Numeral.Usable R) (thr : Nat) (h1 : 1 ≤ thr)
    (h64 : R.radix ^ thr ≤ 2 ^ 64) {s : List Nat} {q : ℚ} (hs : Numeral.Spec.Reads R s q) (hones : ¬ Ones f.width q)
    (hlow : (2 : ℚ) ^ (2 - f.bias - f.width : ℤ) ≤ q) (hhigh : q < 2 ^ (f.bias + 1 : ℤ)) (st : Numeral.State)
    (hst : st.error = false) :
    ∃ r st', readFloat I R thr s st = (.done r, st') ∧ st'.error = false ∧
      (Down f q r ∨ (Up f q r ∧ magnitude f r ≤ q + q * 2 ^ (1 - f.width : ℤ))) := by
  obtain ⟨u, st', e1, e2, e3, e4⟩ := Numeral.fraction_from_string_correct hR thr h1 h64 s _ hs st hst
  have e2' : (u.num : ℚ) / u.den = q := e2
  have hn : u.num ≠ 0 := by
    intro hz
    rw [hz, Nat.cast_zero, zero_div] at e2'
    have := two_zpow_pos (2 - f.bias - f.width : ℤ)
    linarith
  obtain ⟨r, h3, h4⟩ := (toFloat_cases h.agrees hn e3 (by rw [e2']; exact hones)).2.2 (by rw [e2']; exact hlow)
    (by rw [e2']; exact hhigh)
  rw [e2'] at h4
  refine ⟨r, st', ?_, e4, h4⟩
  unfold readFloat
  rw [e1]
  dsimp only
  rw [h3]

/-- C96 fails: `"0.1"` is not read as the `double` nearest to one tenth. -/
theorem read_nearest_refuted :
    readFloat float64 Numeral.decimal 19 [0x30, 0x2E, 0x31] {} = (.done 0x3FB9999999999999, { decimal := true }) ∧
    ¬ Nearest binary64 (1 / 10) 0x3FB9999999999999 :=
  ⟨by decide +kernel, to_native_nearest_refuted.2⟩

/-- C96 fails: `"36893488147419103231"`, that is `2^65-1`, is read as zero, `"1e-400"` is undefined, and `"1e400"` is
read as zero. -/
theorem read_range_refuted :
    (readFloat float64 Numeral.decimal 19 [0x33, 0x36, 0x38, 0x39, 0x33, 0x34, 0x38, 0x38, 0x31, 0x34, 0x37, 0x34, 0x31,
      0x39, 0x31, 0x30, 0x33, 0x32, 0x33, 0x31] {}).1 = .done 0 ∧
    (readFloat float64 Numeral.decimal 19 [0x31, 0x65, 0x2D, 0x34, 0x30, 0x30] {}).1 = .undefined ∧
    (readFloat float64 Numeral.decimal 19 [0x31, 0x65, 0x34, 0x30, 0x30] {}).1 = .done 0 := by
  decide +kernel

end ELC.Float
