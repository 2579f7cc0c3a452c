import Verif.Shift.Lemmas
/-!
C193: shifting by a count with a sign, or by a big count.  `Ubig.Spec.Stores w a x`: the digits `a` of `w` bits are the stored form
of `x`; `Wide.Spec.IsInt w a x`: sign and digits denote `x`; `Convert.Spec.Fits`: a number of the native type; `Truncated q z`: `z`
is `q` without its fraction.  `none` is undefined behaviour.
-/
namespace ELC.Shift
open ELC.Ubig.Spec (Stores)
open ELC.Ubig (Digits)
open ELC.Convert (NType)
open ELC.Convert.Spec (Fits)
open ELC.Wide (SBig)
open ELC.Wide.Spec (IsInt)
open ELC.Shift.Spec

/-- The least number of a type as wide as `int`, or wider. -/
abbrev Least (T : NType) (c : ℤ) : Prop := T.signed = true ∧ 32 ≤ T.bits ∧ c = T.min

variable {w : ℕ} {T : NType} {c : ℤ}

/-- C193 for `<<=` and `>>=` of an unsigned big integer, any native count but the least: `x * 2^c` and `x * 2^-c` without the
fraction. -/
theorem assign_partial (hw : 0 < w) {a : Digits} {x : ℕ} (ha : Stores w a x) (hc : Fits T.signed T.bits c) (hm : ¬ Least T c) :
    (∃ r, ∃ z : ℕ, shlAssign w T a c = some r ∧ Stores w r z ∧ Truncated ((x : ℚ) * 2 ^ c) z) ∧
    (∃ r, ∃ z : ℕ, shrAssign w T a c = some r ∧ Stores w r z ∧ Truncated ((x : ℚ) * 2 ^ (-c)) z) := by
  unfold shlAssign shrAssign
  rw [absN_fits hc, if_neg hm, isNeg_fits hc, Option.map_some, Option.map_some]
  by_cases h : c < 0
  · simp only [h, decide_true, if_true]
    have e := truncated_up (c := -c) (by omega) x
    rw [Int.natAbs_neg] at e
    exact ⟨⟨_, _, rfl, Ubig.shr_assign_correct hw ha _, truncated_down h x⟩, ⟨_, _, rfl, Ubig.shl_correct hw ha _, e⟩⟩
  · simp only [h, decide_false, Bool.false_eq_true, if_false]
    refine ⟨⟨_, _, rfl, Ubig.shl_correct hw ha _, truncated_up (by omega) x⟩, ⟨_, _, rfl, Ubig.shr_assign_correct hw ha _, ?_⟩⟩
    by_cases h0 : c = 0
    · subst h0
      have := truncated_up (c := 0) le_rfl x
      simpa using this
    · have e := truncated_down (c := -c) (by omega) x
      rwa [Int.natAbs_neg] at e

/-- C193 for `<<` and `>>` of an unsigned big integer: what is delivered is right, and it is delivered unless the number is made
smaller by digits and bits and digits are left (C11). -/
theorem shift_partial (hw : 0 < w) {a : Digits} {x : ℕ} (ha : Stores w a x) (hc : Fits T.signed T.bits c) (hm : ¬ Least T c) :
    (∀ r, shl w T a c = some r → ∃ z : ℕ, Stores w r z ∧ Truncated ((x : ℚ) * 2 ^ c) z) ∧
    (∀ r, shr w T a c = some r → ∃ z : ℕ, Stores w r z ∧ Truncated ((x : ℚ) * 2 ^ (-c)) z) ∧
    (shl w T a c = none ↔ c ≤ -w ∧ ¬ (w : ℤ) ∣ c ∧ c.natAbs / w < a.length) ∧
    (shr w T a c = none ↔ (w : ℤ) ≤ c ∧ ¬ (w : ℤ) ∣ c ∧ c.natAbs / w < a.length) := by
  have hd : (w : ℤ) ∣ c ↔ c.natAbs % w = 0 := by
    rw [← Nat.dvd_iff_mod_eq_zero, Int.natCast_dvd]
  unfold shl shr
  rw [absN_fits hc, if_neg hm, isNeg_fits hc, Option.bind_some, Option.bind_some]
  by_cases h : c < 0
  · simp only [h, decide_true, if_true]
    have e := truncated_up (c := -c) (by omega) x
    rw [Int.natAbs_neg] at e
    refine ⟨fun r hr => ⟨_, Ubig.shr_delivered_correct hw ha _ hr, truncated_down h x⟩, ?_, ?_, ?_⟩
    · rintro r hr
      cases hr
      exact ⟨_, Ubig.shl_correct hw ha _, e⟩
    · rw [Ubig.shr_characterised hw, hd]
      refine and_congr ?_ Iff.rfl
      omega
    · simp only [reduceCtorEq, false_iff]
      omega
  · simp only [h, decide_false, Bool.false_eq_true, if_false]
    refine ⟨?_, ?_, ?_, ?_⟩
    · rintro r hr
      cases hr
      exact ⟨_, Ubig.shl_correct hw ha _, truncated_up (by omega) x⟩
    · intro r hr
      refine ⟨_, Ubig.shr_delivered_correct hw ha _ hr, ?_⟩
      by_cases h0 : c = 0
      · subst h0
        have := truncated_up (c := 0) le_rfl x
        simpa using this
      · have e := truncated_down (c := -c) (by omega) x
        rwa [Int.natAbs_neg] at e
    · simp only [reduceCtorEq, false_iff]
      omega
    · rw [Ubig.shr_characterised hw, hd]
      refine and_congr ?_ Iff.rfl
      omega

/-- C193 is false of the least `int` or wider number: every shift by it is undefined, in either direction, though the magnitude is
taken "to avoid overflow". -/
theorem least_refuted (hc : Fits T.signed T.bits c) (hm : Least T c) (a : Digits) (b : SBig) :
    shl w T a c = none ∧ shr w T a c = none ∧ shlAssign w T a c = none ∧ shrAssign w T a c = none ∧
    intShl w T b c = none ∧ intShr w T b c = none ∧ intShlAssign w T b c = none ∧ intShrAssign w T b c = none := by
  unfold intShl intShr intShlAssign intShrAssign shl shr shlAssign shrAssign
  rw [absN_fits hc, if_pos hm]
  exact ⟨rfl, rfl, rfl, rfl, rfl, rfl, rfl, rfl⟩

example : Least ⟨true, 2⟩ (-2147483648) ∧ Fits true 32 (-2147483648) := by decide

theorem int_of_nat {r : Digits} {z x : ℕ} {q : ℚ} (hr : Stores w r z) (h : Truncated ((x : ℚ) * q) z) (neg : Bool) :
    ∃ y : ℤ, IsInt w ⟨neg, r⟩ y ∧ IsInt w (SBig.make r neg) y ∧ Truncated ((if neg then -(x : ℤ) else x : ℤ) * q) y := by
  refine ⟨if neg then -(z : ℤ) else z, ⟨z, hr, rfl⟩, ⟨z, hr, ?_⟩, ?_⟩
  · unfold SBig.make
    by_cases h0 : r = []
    · have : z = 0 := (Wide.stores_eq_nil hr).1 h0
      subst this
      simp
    · simp [h0]
  · cases neg
    · simpa using h
    · have := truncated_neg h
      simpa using this

/-- C193 for `<<=` and `>>=` of a signed big integer. -/
theorem int_assign_partial (hw : 0 < w) {a : SBig} {x : ℤ} (ha : IsInt w a x) (hc : Fits T.signed T.bits c) (hm : ¬ Least T c) :
    (∃ r y, intShlAssign w T a c = some r ∧ IsInt w r y ∧ Truncated ((x : ℚ) * 2 ^ c) y) ∧
    (∃ r y, intShrAssign w T a c = some r ∧ IsInt w r y ∧ Truncated ((x : ℚ) * 2 ^ (-c)) y) := by
  obtain ⟨n, hn, rfl⟩ := ha
  obtain ⟨⟨r1, z1, e1, s1, t1⟩, ⟨r2, z2, e2, s2, t2⟩⟩ := assign_partial hw hn hc hm
  obtain ⟨y1, i1, -, u1⟩ := int_of_nat s1 t1 a.neg
  obtain ⟨y2, i2, -, u2⟩ := int_of_nat s2 t2 a.neg
  unfold intShlAssign intShrAssign
  rw [e1, e2]
  exact ⟨⟨_, y1, rfl, i1, u1⟩, ⟨_, y2, rfl, i2, u2⟩⟩

/-- C193 for `<<` and `>>` of a signed big integer. -/
theorem int_shift_partial (hw : 0 < w) {a : SBig} {x : ℤ} (ha : IsInt w a x) (hc : Fits T.signed T.bits c) (hm : ¬ Least T c) :
    (∀ r, intShl w T a c = some r → ∃ y, IsInt w r y ∧ Truncated ((x : ℚ) * 2 ^ c) y) ∧
    (∀ r, intShr w T a c = some r → ∃ y, IsInt w r y ∧ Truncated ((x : ℚ) * 2 ^ (-c)) y) ∧
    (intShl w T a c = none ↔ c ≤ -w ∧ ¬ (w : ℤ) ∣ c ∧ c.natAbs / w < a.num.length) ∧
    (intShr w T a c = none ↔ (w : ℤ) ≤ c ∧ ¬ (w : ℤ) ∣ c ∧ c.natAbs / w < a.num.length) := by
  obtain ⟨n, hn, rfl⟩ := ha
  obtain ⟨h1, h2, h3, h4⟩ := shift_partial hw hn hc hm
  unfold intShl intShr
  refine ⟨?_, ?_, by rw [Option.map_eq_none_iff]; exact h3, by rw [Option.map_eq_none_iff]; exact h4⟩
  · intro r hr
    obtain ⟨m, e, rfl⟩ := Option.map_eq_some_iff.1 hr
    obtain ⟨z, s, t⟩ := h1 m e
    obtain ⟨y, -, i, u⟩ := int_of_nat s t a.neg
    exact ⟨y, i, u⟩
  · intro r hr
    obtain ⟨m, e, rfl⟩ := Option.map_eq_some_iff.1 hr
    obtain ⟨z, s, t⟩ := h2 m e
    obtain ⟨y, -, i, u⟩ := int_of_nat s t a.neg
    exact ⟨y, i, u⟩

/-! ### big counts -/

/-- C193, what a count of type `ubigint` does: it is taken modulo `w * 2^64`, and undefined if nothing is left of it. -/
theorem big_count_characterised (hw : 0 < w) (hw64 : w ≤ 2 ^ 64) {a : Digits} (ha : a ≠ []) (n : ℕ) :
    shlBig w a n = (if n ≠ 0 ∧ n % (w * 2 ^ 64) = 0 then none else some (Ubig.shl w a (n % (w * 2 ^ 64)))) ∧
    shrBig w a n = (if n ≠ 0 ∧ n % (w * 2 ^ 64) = 0 then none else Ubig.shr w a (n % (w * 2 ^ 64))) ∧
    shrAssignBig w a n = (if n ≠ 0 ∧ n % (w * 2 ^ 64) = 0 then none else some (Ubig.shrAssign w a (n % (w * 2 ^ 64)))) := by
  have hl : 0 < a.length := List.length_pos_iff.2 ha
  unfold shlBig shrBig shrAssignBig
  simp only [if_neg ha, toSize_div]
  by_cases h : n ≠ 0 ∧ n % (w * 2 ^ 64) = 0
  · simp only [if_pos h, h.2, Nat.zero_div, ne_eq, not_true_eq_false, if_false, false_and, ge_iff_le, Nat.le_zero,
      show a.length ≠ 0 by omega, offsets_zero h.2]
    simp [h.1]
  · obtain ⟨h1, h2⟩ := bits_left hw hw64 h
    simp only [if_neg h]
    unfold Ubig.shl Ubig.shr Ubig.shrAssign
    simp only [if_neg ha]
    generalize n % (w * 2 ^ 64) / w = q at *
    generalize (if q ≠ 0 then n % w else n) = r at *
    generalize (if q ≠ 0 then n % (w * 2 ^ 64) % w else n % (w * 2 ^ 64)) = s at *
    by_cases hr : r ≠ 0
    · simp only [if_pos hr, if_pos (h1.1 hr), h2 hr, Option.map_some]
      refine ⟨trivial, trivial, ?_⟩
      split <;> rfl
    · have hs : ¬ s ≠ 0 := fun hs => hr (h1.2 hs)
      simp only [if_neg hr, if_neg hs, Option.map_some]
      refine ⟨trivial, trivial, ?_⟩
      split <;> rfl

/-- C193 for counts of type `ubigint` below `w * 2^64`. -/
theorem big_count_partial (hw : 0 < w) (hw64 : w ≤ 2 ^ 64) {a : Digits} {x : ℕ} (ha : Stores w a x) {n : ℕ} (hn : n < w * 2 ^ 64) :
    (∃ r, shlBig w a n = some r ∧ Stores w r (x * 2 ^ n)) ∧
    (∃ r, shrAssignBig w a n = some r ∧ Stores w r (x / 2 ^ n)) ∧
    (∀ r, shrBig w a n = some r → Stores w r (x / 2 ^ n)) ∧
    (shrBig w a n = none ↔ w ≤ n ∧ n % w ≠ 0 ∧ n / w < a.length) := by
  by_cases h0 : a = []
  · subst h0
    have : x = 0 := (Wide.stores_eq_nil ha).1 rfl
    subst this
    refine ⟨⟨[], rfl, by simpa using ha⟩, ⟨[], rfl, by simpa using ha⟩, ?_, ?_⟩
    · rintro r hr
      cases hr
      simpa using ha
    · simp [shrBig]
  · obtain ⟨e1, e2, e3⟩ := big_count_characterised hw hw64 h0 n
    rw [Nat.mod_eq_of_lt hn, if_neg (by omega)] at e1 e2 e3
    rw [e1, e2, e3]
    exact ⟨⟨_, rfl, Ubig.shl_correct hw ha n⟩, ⟨_, rfl, Ubig.shr_assign_correct hw ha n⟩,
      fun r hr => Ubig.shr_delivered_correct hw ha n hr, Ubig.shr_characterised hw n⟩

/-- C193 is false of bigger counts: a number of at least two digits, shifted right by `w * 2^64 + w` bits, far more than it has, is
left with all its digits but one, and shifting by `w * 2^64` is undefined. -/
theorem big_count_refuted (hw : 0 < w) (hw64 : w ≤ 2 ^ 64) {a : Digits} {x : ℕ} (ha : Stores w a x) (h2 : 2 ≤ a.length) :
    shrAssignBig w a (w * 2 ^ 64 + w) = some (a.drop 1) ∧ shrBig w a (w * 2 ^ 64 + w) = some (a.drop 1) ∧
    Stores w (a.drop 1) (x / 2 ^ w) ∧ x / 2 ^ w ≠ 0 ∧ (x < 2 ^ (w * 2 ^ 64) → x / 2 ^ (w * 2 ^ 64 + w) = 0) ∧
    shlBig w a (w * 2 ^ 64) = none ∧ shrBig w a (w * 2 ^ 64) = none ∧ shrAssignBig w a (w * 2 ^ 64) = none := by
  have hne : a ≠ [] := by rintro rfl; simp at h2
  obtain ⟨-, e2, e3⟩ := big_count_characterised hw hw64 hne (w * 2 ^ 64 + w)
  obtain ⟨f1, f2, f3⟩ := big_count_characterised hw hw64 hne (w * 2 ^ 64)
  have hm : (w * 2 ^ 64 + w) % (w * 2 ^ 64) = w := by rw [Nat.add_mod_left, Nat.mod_eq_of_lt (by omega)]
  rw [hm, if_neg (by omega)] at e2 e3
  rw [Nat.mod_self, if_pos ⟨by omega, rfl⟩] at f1 f2 f3
  have d1 : Ubig.shrAssign w a w = a.drop 1 := by
    unfold Ubig.shrAssign
    simp [hne, Nat.div_self hw, show ¬ a.length ≤ 1 by omega]
  have d2 : Ubig.shr w a w = some (a.drop 1) := by
    unfold Ubig.shr
    simp [hne, Nat.div_self hw, show ¬ a.length ≤ 1 by omega]
  have hs := Ubig.shr_assign_correct hw ha w
  rw [d1] at hs
  refine ⟨by rw [e3, d1], by rw [e2, d2], hs, ?_, ?_, f1, f2, f3⟩
  · intro h
    have := (Wide.stores_eq_nil hs).2 h
    have := congrArg List.length this
    simp at this
    omega
  · intro h
    exact Nat.div_eq_of_lt (h.trans_le (Nat.pow_le_pow_right (by norm_num) (by omega)))

/-- C193 for a count of type `bigint`: a negative one shifts the other way. -/
theorem by_int_partial (hw : 0 < w) (hw64 : w ≤ 2 ^ 64) {a : Digits} {x : ℕ} (ha : Stores w a x) {c : ℤ} (neg : Bool) {n : ℕ}
    (hcn : c = if neg then -(n : ℤ) else n) (hn : n < w * 2 ^ 64) :
    (∀ r, shlByInt w a neg n = some r → ∃ y, IsInt w r y ∧ Truncated ((x : ℚ) * 2 ^ c) y) ∧
    (∀ r, shrByInt w a neg n = some r → ∃ y, IsInt w r y ∧ Truncated ((x : ℚ) * 2 ^ (-c)) y) := by
  obtain ⟨⟨r1, e1, s1⟩, -, h3, -⟩ := big_count_partial hw hw64 ha hn
  have up := truncated_mul x n
  have down := truncated_div x n
  have k : ((x : ℤ).tdiv (2 ^ n)) = ((x / 2 ^ n : ℕ) : ℤ) := by push_cast; rw [Int.tdiv_eq_ediv_of_nonneg (by omega)]
  rw [k] at down
  have lift : ∀ (r : Digits) (z : ℕ), Stores w r z → IsInt w (SBig.make r false) z := by
    intro r z h
    refine ⟨z, h, ?_⟩
    unfold SBig.make
    simp
  unfold shlByInt shrByInt
  subst hcn
  cases neg
  · simp only [Bool.false_eq_true, if_false]
    refine ⟨?_, ?_⟩
    · intro r hr
      obtain ⟨m, e, rfl⟩ := Option.map_eq_some_iff.1 hr
      rw [e1] at e; cases e
      exact ⟨_, lift _ _ s1, by push_cast; exact_mod_cast up⟩
    · intro r hr
      obtain ⟨m, e, rfl⟩ := Option.map_eq_some_iff.1 hr
      exact ⟨_, lift _ _ (h3 m e), by exact_mod_cast down⟩
  · simp only [if_true, neg_neg]
    refine ⟨?_, ?_⟩
    · intro r hr
      obtain ⟨m, e, rfl⟩ := Option.map_eq_some_iff.1 hr
      exact ⟨_, lift _ _ (h3 m e), by exact_mod_cast down⟩
    · intro r hr
      obtain ⟨m, e, rfl⟩ := Option.map_eq_some_iff.1 hr
      rw [e1] at e; cases e
      exact ⟨_, lift _ _ s1, by push_cast; exact_mod_cast up⟩

example : shlByInt 32 [8, 3] true 3 = some ⟨false, [2 ^ 30 + 2 ^ 29 + 1]⟩ := by decide +kernel
example : intShlAssign 32 ⟨true, 0⟩ ⟨true, [7]⟩ (-1) = some ⟨true, [3]⟩ := by decide +kernel

end ELC.Shift
