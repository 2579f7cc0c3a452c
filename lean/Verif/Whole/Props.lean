import Verif.Whole.Lemmas
/-!
Rounding to whole numbers at compile time, C190.

`Num.value` is the value of a signed floating point number (`Verif.Whole.Spec`); `⌊x⌋`, `⌈x⌉` and `Int.fract` are Mathlib's.
-/
namespace ELC.Whole

open ELC.Float ELC.Float.Spec ELC.Sqrt

variable {I : Info} {f : Format}

theorem bias_room (hn : IsNative I f) : f.p + 3 ≤ f.bias := by
  rcases hn with ⟨rfl, rfl⟩ | ⟨rfl, rfl⟩ | ⟨rfl, rfl⟩ <;> decide

theorem part_value (h : Agrees I f) {m : Nat} (hm : m < infinity I) : magnitude f (intPart I m) = ⌊magnitude f m⌋ := by
  have h2 := (plain_lt h).1 (intPart_plain h ((plain_lt h).2 hm))
  have ho : (one I : ℚ) ≠ 0 := by exact_mod_cast (one_pos h).ne'
  rw [floor_mag h hm.le, magQ h h2.le, (parts_eq h m).1, Int.cast_natCast, Nat.cast_mul, mul_div_cancel_right₀ _ ho]

theorem mag_nonneg' (h : Agrees I f) {m : Nat} (hm : m < infinity I) : 0 ≤ magnitude f m := mag_nonneg h hm.le

theorem below_iff (h : Agrees I f) {v : Num} (hv : Plain f v.mag) : v.below = true ↔ v.value f < 0 := by
  have hlt := (plain_lt h).1 hv
  have h0 := mag_nonneg' h hlt
  have hpos : (0 : ℚ) < one I := by exact_mod_cast one_pos h
  unfold Num.below Num.value
  cases hneg : v.neg with
  | false => simpa using h0
  | true =>
    simp only [Bool.true_and, if_true, bne_iff_ne, ne_eq, neg_lt_zero]
    constructor
    · intro hne
      have h1 := mag_eq h hlt.le
      have h2 : 0 < units f.p v.mag := by have := units_lt (p := f.p) (show 0 < v.mag by omega); omega
      have h3 : (0 : ℚ) < units f.p v.mag := by exact_mod_cast h2
      rw [← h1] at h3
      exact (mul_pos_iff_of_pos_right hpos).1 h3
    · intro hlt0 he
      rw [he, magQ h (Nat.zero_le _), units_zero] at hlt0
      simp at hlt0

theorem value_of_nonneg {v : Num} (h : Agrees I f) (hv : Plain f v.mag) (h0 : 0 ≤ v.value f) : v.value f = magnitude f v.mag := by
  have hm := mag_nonneg' h ((plain_lt h).1 hv)
  unfold Num.value at h0 ⊢
  cases hneg : v.neg with
  | false => simp
  | true =>
    rw [hneg] at h0
    simp only [if_true] at h0 ⊢
    linarith

theorem value_of_neg {v : Num} (h : Agrees I f) (hv : Plain f v.mag) (h0 : v.value f < 0) : v.neg = true ∧ v.value f = -magnitude f v.mag := by
  have hm := mag_nonneg' h ((plain_lt h).1 hv)
  unfold Num.value at h0 ⊢
  cases hneg : v.neg with
  | false => rw [hneg] at h0; simp at h0; linarith
  | true => simp

theorem toUint_eq (h : Agrees I f) {m : Nat} (hm : m < infinity I) : toUint I m = if magnitude f m < 2 ^ 64 then some (units f.p m / one I) else none := by
  have e : magnitude f m < 2 ^ 64 ↔ units f.p m / one I < 2 ^ 64 := by
    have h1 := floor_mag h hm.le
    have h2 : magnitude f m < ((2 ^ 64 : ℕ) : ℤ) ↔ ⌊magnitude f m⌋ < ((2 ^ 64 : ℕ) : ℤ) := Int.floor_lt.symm
    rw [h1] at h2
    have h3 : magnitude f m < 2 ^ 64 ↔ magnitude f m < (((2 ^ 64 : ℕ) : ℤ) : ℚ) := by norm_num
    rw [h3, h2]
    exact_mod_cast Iff.rfl
  unfold toUint
  rw [h.bit]
  by_cases hc : magnitude f m < 2 ^ 64
  · have := e.1 hc
    rw [if_neg (by omega), if_pos hc]
  · have : ¬ units f.p m / one I < 2 ^ 64 := fun h' => hc (e.2 h')
    rw [if_pos (by omega), if_neg hc]

/-! ### Truncation -/

/-- C190: a truncation that compiles is the number without its fraction. -/
theorem trunc_right (hn : IsNative I f) {v r : Num} (hv : Plain f v.mag) (hr : trunc I v = some r) :
    r.value f = if 0 ≤ v.value f then (⌊v.value f⌋ : ℚ) else ⌈v.value f⌉ := by
  have h := hn.agrees
  have hlt := (plain_lt h).1 hv
  unfold trunc at hr
  dsimp only at hr
  by_cases hcond : v.mag ≥ infinity I ∨ (v.neg = true ∧ 2 ^ 63 < units I.bit v.mag / one I) ∨ (v.neg = false ∧ 2 ^ 63 ≤ units I.bit v.mag / one I)
  · rw [if_pos hcond] at hr
    cases hr
  · rw [if_neg hcond] at hr
    cases hr
    rw [h.bit, ofNat_part h hlt]
    have hp := part_value h hlt
    have hf := floor_mag h hlt.le
    by_cases h0 : 0 ≤ v.value f
    · rw [if_pos h0, value_of_nonneg h hv h0, ← hp]
      unfold Num.value
      dsimp only
      split
      · rename_i hc
        rw [Bool.and_eq_true, bne_iff_ne] at hc
        have h1 := value_of_nonneg h hv h0
        unfold Num.value at h1
        rw [if_pos hc.1] at h1
        have h2 : magnitude f v.mag = 0 := by linarith
        rw [h2, Int.floor_zero] at hf
        exact absurd (by exact_mod_cast hf.symm) hc.2
      · rfl
    · obtain ⟨n1, n2⟩ := value_of_neg h hv (not_le.1 h0)
      rw [if_neg h0, n2, Int.ceil_neg]
      push_cast
      rw [← hp]
      unfold Num.value
      rw [n1]
      dsimp only
      by_cases hz : units f.p v.mag / one I = 0
      · rw [hz] at hf
        have : magnitude f (intPart I v.mag) = 0 := by rw [hp, hf]; simp
        rw [this]; simp
      · have : (units f.p v.mag / one I != 0) = true := by rw [bne_iff_ne]; exact hz
        rw [this]; simp

/-- C190: truncation compiles exactly where the result fits in 64 bits with sign. -/
theorem trunc_compiles (hn : IsNative I f) {v : Num} (hv : Plain f v.mag) :
    (∃ r, trunc I v = some r) ↔ -2 ^ 63 - 1 < v.value f ∧ (v.value f < 2 ^ 63) := by
  have h := hn.agrees
  have hlt := (plain_lt h).1 hv
  have h0 := mag_nonneg' h hlt
  have key : ∀ k : ℕ, units f.p v.mag / one I < k ↔ magnitude f v.mag < k := by
    intro k
    have h1 := floor_mag h hlt.le
    have h2 : magnitude f v.mag < ((k : ℤ) : ℚ) ↔ ⌊magnitude f v.mag⌋ < (k : ℤ) := Int.floor_lt.symm
    rw [h1] at h2
    rw [Int.cast_natCast] at h2
    rw [h2]
    exact_mod_cast Iff.rfl
  unfold trunc Num.value
  dsimp only
  rw [h.bit]
  cases hneg : v.neg with
  | false =>
    simp only [Bool.false_eq_true, if_false, false_and, true_and, false_or]
    have k1 := key (2 ^ 63)
    push_cast at k1
    by_cases hc : units f.p v.mag / one I < 2 ^ 63
    · rw [if_neg (by omega)]
      have := k1.1 hc
      exact ⟨fun _ => ⟨by linarith, this⟩, fun _ => ⟨_, rfl⟩⟩
    · rw [if_pos (by omega)]
      exact ⟨fun ⟨_, hr⟩ => (by cases hr), fun ⟨_, h2⟩ => absurd (k1.2 h2) hc⟩
  | true =>
    simp only [if_true, true_and, Bool.true_eq_false, false_and, or_false]
    have k1 := key (2 ^ 63 + 1)
    push_cast at k1
    by_cases hc : units f.p v.mag / one I < 2 ^ 63 + 1
    · rw [if_neg (by omega)]
      have := k1.1 hc
      exact ⟨fun _ => ⟨by linarith, by linarith [show (0 : ℚ) < 2 ^ 63 by norm_num]⟩, fun _ => ⟨_, rfl⟩⟩
    · rw [if_pos (by omega)]
      exact ⟨fun ⟨_, hr⟩ => (by cases hr), fun ⟨h1, _⟩ => absurd (k1.2 (by linarith)) hc⟩

/-- -2.5 truncates to -2. -/
example : trunc float32 ⟨true, 0x40200000⟩ = some ⟨true, 0x40000000⟩ := by decide +kernel

/-! ### Ceiling -/

/-- C190: what `ceil` gives for every number below `2^64`: the ceiling, except that a number above a whole one by at most the `ε` of the type
goes down to it. -/
theorem ceil_characterised (hn : IsNative I f) {v : Num} (hv : Plain f v.mag) (h64 : |v.value f| < 2 ^ 64) :
    ∃ r, ceil I v = some r ∧ Plain f r.mag ∧
      r.value f = if 0 ≤ v.value f ∧ Int.fract (v.value f) ≤ 1 / 2 ^ f.p then (⌊v.value f⌋ : ℚ) else ⌈v.value f⌉ := by
  have h := hn.agrees
  have hb := bias_room hn
  have hlt := (plain_lt h).1 hv
  have hip := intPart_plain h hv
  by_cases h0 : 0 ≤ v.value f
  · have hnb : ¬ v.below = true := fun hc => absurd ((below_iff h hv).1 hc) (not_lt.2 h0)
    rw [abs_of_nonneg h0] at h64
    have e := value_of_nonneg h hv h0
    rw [e] at h64 h0 ⊢
    unfold ceil
    rw [if_neg hnb, toUint_eq h hlt, if_pos h64]
    dsimp only [Option.map]
    rw [ofNat_part h hlt]
    by_cases hc : Int.fract (magnitude f v.mag) ≤ 1 / 2 ^ f.p
    · rw [if_pos ((close_iff h hb hlt).2 hc), if_pos ⟨h0, hc⟩]
      exact ⟨_, rfl, hip, by rw [← part_value h hlt]; simp [Num.value]⟩
    · have hne : Int.fract (magnitude f v.mag) ≠ 0 := by
        intro h1; rw [h1] at hc; exact hc (by positivity)
      have hsm := small_of_fract h (fun h1 => hne ((whole_iff h hlt.le).2 h1))
      obtain ⟨w1, w2⟩ := whole_exact h (by omega : f.p ≤ f.bias) (n := units f.p v.mag / one I + 1) (by omega)
      rw [if_neg (fun h1 => hc ((close_iff h hb hlt).1 h1)), if_neg (fun h1 => hc h1.2), add_one h (parts_eq h v.mag).1]
      refine ⟨_, rfl, (plain_lt h).2 w2, ?_⟩
      have ho : (one I : ℚ) ≠ 0 := by exact_mod_cast (one_pos h).ne'
      rw [ceil_mag _ hne, floor_mag h hlt.le, Int.cast_add, Int.cast_natCast]
      simp only [Num.value, Bool.false_eq_true, if_false]
      rw [magQ h w2.le, w1, Nat.cast_mul, mul_div_cancel_right₀ _ ho, Nat.cast_add, Nat.cast_one, Int.cast_one]
  · obtain ⟨n1, n2⟩ := value_of_neg h hv (not_le.1 h0)
    have hb' := (below_iff h hv).2 (not_le.1 h0)
    have h64' : magnitude f v.mag < 2 ^ 64 := by
      rw [n2, abs_neg] at h64
      exact lt_of_le_of_lt (le_abs_self _) h64
    unfold ceil
    rw [if_pos hb', toUint_eq h hlt, if_pos h64']
    dsimp only [Option.map]
    rw [ofNat_part h hlt, if_neg (fun hc => h0 hc.1)]
    refine ⟨_, rfl, hip, ?_⟩
    rw [n2, Int.ceil_neg]
    push_cast
    rw [← part_value h hlt]
    simp [Num.value]

/-- C190: `ceil` is right for every negative number and for every number that is not nearer than `ε` above a whole one.  `_partial`: see
`ceil_refuted`. -/
theorem ceil_right_partial (hn : IsNative I f) {v : Num} (hv : Plain f v.mag) (h64 : |v.value f| < 2 ^ 64)
    (hfr : v.value f < 0 ∨ Int.fract (v.value f) = 0 ∨ 1 / 2 ^ f.p < Int.fract (v.value f)) :
    ∃ r, ceil I v = some r ∧ Plain f r.mag ∧ r.value f = ⌈v.value f⌉ := by
  obtain ⟨r, h1, h2, h3⟩ := ceil_characterised hn hv h64
  refine ⟨r, h1, h2, ?_⟩
  rw [h3]
  split
  · rename_i hc
    rcases hfr with hx | hx | hx
    · exact absurd hc.1 (not_le.2 hx)
    · have h5 := Int.floor_add_fract (v.value f)
      rw [hx, add_zero] at h5
      have h6 : ⌈v.value f⌉ = ⌊v.value f⌋ := by
        rw [Int.ceil_eq_iff]
        constructor <;> linarith
      rw [h6]
    · exact absurd hc.2 (not_le.2 hx)
  · rfl

/-- 2.5 goes up to 3. -/
example : ceil float32 ⟨false, 0x40200000⟩ = some ⟨false, 0x40400000⟩ := by decide +kernel

/-- C190: in `double`, `ceil` of `2^-60` is zero at compile time. -/
theorem ceil_refuted : ceil float64 ⟨false, 963 * 2 ^ 52⟩ = some ⟨false, 0⟩ ∧ Num.value binary64 ⟨false, 963 * 2 ^ 52⟩ = 2 ^ (-60 : ℤ) := by
  refine ⟨by decide +kernel, ?_⟩
  norm_num [Num.value, magnitude, Spec.field, fraction, binary64]

/-! ### Floor -/

/-- C190: what `floor` gives for every number from zero to `2^64`: one less than the floor, unless the number is above a whole one by at most the
`ε` of the type. -/
theorem floor_characterised (hn : IsNative I f) {v : Num} (hv : Plain f v.mag) (h0 : 0 ≤ v.value f) (h64 : v.value f < 2 ^ 64) :
    ∃ r, floor I v = some r ∧ Plain f r.mag ∧
      r.value f = if Int.fract (v.value f) ≤ 1 / 2 ^ f.p then (⌊v.value f⌋ : ℚ) else ⌊v.value f⌋ - 1 := by
  have h := hn.agrees
  have hb := bias_room hn
  have hlt := (plain_lt h).1 hv
  have hip := intPart_plain h hv
  have hnb : ¬ v.below = true := fun hc => absurd ((below_iff h hv).1 hc) (not_lt.2 h0)
  have e := value_of_nonneg h hv h0
  rw [e] at h64 h0 ⊢
  unfold floor
  rw [if_neg hnb, toUint_eq h hlt, if_pos h64]
  dsimp only [Option.map]
  rw [ofNat_part h hlt]
  by_cases hc : Int.fract (magnitude f v.mag) ≤ 1 / 2 ^ f.p
  · rw [if_pos ((close_iff h hb hlt).2 hc), if_pos hc]
    exact ⟨_, rfl, hip, by rw [← part_value h hlt]; simp [Num.value]⟩
  · have hne : Int.fract (magnitude f v.mag) ≠ 0 := by
      intro h1; rw [h1] at hc; exact hc (by positivity)
    have hsm := small_of_fract h (fun h1 => hne ((whole_iff h hlt.le).2 h1))
    have hpp := Nat.two_pow_pos f.p
    have hu := (parts_eq h v.mag).1
    rw [if_neg (fun h1 => hc ((close_iff h hb hlt).1 h1)), if_neg hc, floor_mag h hlt.le]
    generalize units f.p v.mag / one I = n at *
    obtain ⟨w1, w2⟩ := whole_exact h (by omega : f.p ≤ f.bias) (n := n - 1 + (1 - n)) (by omega)
    have ho : (one I : ℚ) ≠ 0 := by exact_mod_cast (one_pos h).ne'
    have hone := (ofNat_eq h (n := 1) (by norm_num)).1
    have hlt1 : intPart I v.mag < ofNat I 1 ↔ n = 0 := by
      rw [← not_le, ← units_le_iff (p := f.p), hu, hone, Nat.one_mul]
      have := one_pos h
      constructor
      · intro h1
        by_contra hc
        have := Nat.mul_le_mul_right (one I) (show 1 ≤ n by omega)
        omega
      · intro h1
        rw [h1]
        omega
    refine ⟨minusOne I (intPart I v.mag), rfl, ?_, ?_⟩
    · unfold minusOne
      dsimp only
      rw [sub_one h hu]
      exact (plain_lt h).2 w2
    · unfold minusOne Num.value
      dsimp only
      rw [sub_one h hu, magQ h w2.le, w1]
      by_cases hz : n = 0
      · subst hz
        rw [decide_eq_true (hlt1.2 rfl), if_pos rfl]
        push_cast
        field_simp
        norm_num
      · rw [decide_eq_false (fun h1 => hz (hlt1.1 h1))]
        simp only [Bool.false_eq_true, if_false]
        obtain ⟨k, rfl⟩ : ∃ k, n = k + 1 := ⟨n - 1, by omega⟩
        rw [show k + 1 - 1 + (1 - (k + 1)) = k by omega]
        push_cast
        field_simp
        ring

/-- C190: what `floor` gives for a negative number: the integer part of the number less one, rounded, so that whole numbers go down by one. -/
theorem floor_negative (hn : IsNative I f) {v : Num} {d : Nat} (hv : Plain f v.mag) (h0 : v.value f < 0) (hd : Plain f d)
    (hsum : magnitude f d = 1 - v.value f) (h64 : 1 - v.value f < 2 ^ 64) :
    ∃ r, floor I v = some r ∧ Plain f r.mag ∧ r.value f = if Int.fract (v.value f) = 0 then (⌊v.value f⌋ : ℚ) - 1 else ⌊v.value f⌋ := by
  have h := hn.agrees
  have hlt := (plain_lt h).1 hv
  have hdl := (plain_lt h).1 hd
  obtain ⟨n1, n2⟩ := value_of_neg h hv h0
  have hb' := (below_iff h hv).2 h0
  have ho : (one I : ℚ) ≠ 0 := by exact_mod_cast (one_pos h).ne'
  have hone := (ofNat_eq h (n := 1) (by norm_num)).1
  have hadd : fadd I v.mag (ofNat I 1) = d := by
    have hu : units f.p v.mag + units f.p (ofNat I 1) = 1 * units f.p d := by
      have h1 : (units f.p v.mag : ℚ) + one I = units f.p d := by
        rw [← mag_eq h hlt.le, ← mag_eq h hdl.le, hsum, n2]; ring
      rw [hone, Nat.one_mul, Nat.one_mul]
      exact_mod_cast h1
    unfold fadd
    rw [h.bit, hu]
    exact nearest_exact h Nat.one_pos hdl.le
  unfold floor
  rw [if_pos hb', hadd, toUint_eq h hdl, if_pos (by rw [hsum]; exact h64)]
  dsimp only [Option.map]
  rw [ofNat_part h hdl]
  refine ⟨_, rfl, intPart_plain h hd, ?_⟩
  have e : (Num.mk true (intPart I d)).value f = -⌊magnitude f d⌋ := by
    rw [← part_value h hdl]; simp [Num.value]
  rw [e, hsum]
  have h1 : ⌊1 - v.value f⌋ = 1 + ⌊-v.value f⌋ := by
    rw [show 1 - v.value f = 1 + -v.value f by ring, show (1 : ℚ) = ((1 : ℤ) : ℚ) by norm_num, Int.floor_intCast_add]
  rw [h1, Int.floor_neg]
  by_cases hz : Int.fract (v.value f) = 0
  · rw [if_pos hz]
    have h5 := Int.floor_add_fract (v.value f)
    rw [hz, add_zero] at h5
    have h6 : ⌈v.value f⌉ = ⌊v.value f⌋ := by
      rw [Int.ceil_eq_iff]
      constructor <;> linarith
    rw [h6]
    push_cast
    ring
  · rw [if_neg hz, ceil_mag _ hz]
    push_cast
    ring

/-- -2.5 goes down to -3, as it should. -/
example : floor float32 ⟨true, 0x40200000⟩ = some ⟨true, 0x40400000⟩ := by decide +kernel

/-- C190: at compile time the floor of 2.5 is 1 and that of -2 is -3. -/
theorem floor_refuted : floor float64 ⟨false, 0x4004000000000000⟩ = some ⟨false, 0x3FF0000000000000⟩ ∧
    floor float64 ⟨true, 0x4000000000000000⟩ = some ⟨true, 0x4008000000000000⟩ ∧
    Num.value binary64 ⟨false, 0x4004000000000000⟩ = 5 / 2 ∧ Num.value binary64 ⟨false, 0x3FF0000000000000⟩ = 1 ∧
    Num.value binary64 ⟨true, 0x4000000000000000⟩ = -2 ∧ Num.value binary64 ⟨true, 0x4008000000000000⟩ = -3 := by
  refine ⟨by decide +kernel, by decide +kernel, ?_, ?_, ?_, ?_⟩ <;> norm_num [Num.value, magnitude, Spec.field, fraction, binary64]

/-- C190: `floor` is right for the numbers from zero on that are whole or above a whole one by at most `ε`, and wrong by one for all others;
it is right for the negative numbers with a fraction whose sum with minus one the type can hold.  `_partial`: see `floor_refuted`. -/
theorem floor_right_partial (hn : IsNative I f) {v : Num} (hv : Plain f v.mag) :
    (0 ≤ v.value f → v.value f < 2 ^ 64 →
      ((∃ r, floor I v = some r ∧ r.value f = ⌊v.value f⌋) ↔ Int.fract (v.value f) ≤ 1 / 2 ^ f.p)) ∧
    (∀ d, v.value f < 0 → Plain f d → magnitude f d = 1 - v.value f → 1 - v.value f < 2 ^ 64 →
      ((∃ r, floor I v = some r ∧ r.value f = ⌊v.value f⌋) ↔ Int.fract (v.value f) ≠ 0)) := by
  constructor
  · intro h0 h64
    obtain ⟨r, h1, _, h3⟩ := floor_characterised hn hv h0 h64
    constructor
    · rintro ⟨r', h4, h5⟩
      rw [h1] at h4
      cases h4
      by_contra hc
      rw [if_neg hc, h5] at h3
      linarith
    · intro hc
      exact ⟨r, h1, by rw [h3, if_pos hc]⟩
  · intro d h0 hd hs h64
    obtain ⟨r, h1, _, h3⟩ := floor_negative hn hv h0 hd hs h64
    constructor
    · rintro ⟨r', h4, h5⟩ hc
      rw [h1] at h4
      cases h4
      rw [if_pos hc, h5] at h3
      linarith
    · intro hc
      exact ⟨r, h1, by rw [h3, if_neg hc]⟩

end ELC.Whole
