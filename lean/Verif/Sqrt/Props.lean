import Verif.Sqrt.Real
import Verif.Arith.Props
/-!
Square roots of native numbers, C185–C187.

`magnitude f d` is the value of the number with bytes `d` (`Verif.Float.Spec`), `Real.sqrt` the root of a real number.
-/
namespace ELC.Sqrt

open ELC.Float ELC.Float.Spec

variable {I : Info} {f : Format}

theorem native_bias (hn : IsNative I f) : 2 * f.p + 3 ≤ f.bias := by
  rcases hn with ⟨rfl, rfl⟩ | ⟨rfl, rfl⟩ | ⟨rfl, rfl⟩ <;> decide

/-! ### C185: the quick root -/

/-- C185: for every positive normal number the quick square root is finite and within 6.1% of the root.  `_partial`: not so for numbers
below the least normal one. -/
theorem quick_sqrt_close_partial (hn : IsNative I f) {v : Nat} (hv : Plain f v) (hv1 : 2 ^ (1 - f.bias : ℤ) ≤ magnitude f v) :
    Plain f (quickSqrt I v) ∧
      |(magnitude f (quickSqrt I v) : ℝ) - Real.sqrt (magnitude f v : ℝ)| ≤ 61 / 1000 * Real.sqrt (magnitude f v : ℝ) := by
  have h := hn.agrees
  have hlt := (plain_lt h).1 hv
  obtain ⟨hq, hroom⟩ := quick_eq h hlt
  have hpp := Nat.two_pow_pos f.p
  have hqi : quickSqrt I v + 1 ≤ infinity I := by omega
  refine ⟨(plain_lt h).2 (by omega), ?_⟩
  have hnorm : 2 ^ f.p ≤ v := by
    by_contra hc
    have hd : v / 2 ^ f.p = 0 := Nat.div_eq_of_lt (by omega)
    have hu : units f.p v = v := by unfold units; rw [hd, if_pos rfl, Nat.mod_eq_of_lt (by omega)]
    rw [magnitude_plain h hv.1, hu] at hv1
    have h1 : (v : ℚ) < 2 ^ (f.p : ℤ) := by
      have : v < 2 ^ f.p := by omega
      rw [zpow_natCast]; exact_mod_cast this
    have h2 : (v : ℚ) * 2 ^ (-(Kof f : ℤ)) < 2 ^ (f.p : ℤ) * 2 ^ (-(Kof f : ℤ)) := mul_lt_mul_of_pos_right h1 (by positivity)
    rw [← zpow_add₀ (by norm_num)] at h2
    have h3 : (f.p : ℤ) + -(Kof f : ℤ) = 1 - f.bias := by unfold Kof; have := h.biasPos; omega
    rw [h3] at h2
    exact absurd hv1 (not_le.2 h2)
  have hnear := quick_near h hlt hnorm
  have habove := quick_above h hlt
  have hqn : 2 ^ f.p ≤ quickSqrt I v := by
    rw [hq]
    have e : 2 ^ f.p = 2 * 2 ^ (f.p - 1) := by rw [← pow_succ']; congr 1; have := h.large.1; omega
    have := Nat.mul_le_mul_right (2 ^ (f.p - 1)) h.large.2
    omega
  have hs := sp_le_units hqn
  have hu := units_sp f.p (quickSqrt I v)
  have hP : 8388608 ≤ 2 ^ f.p := by
    have h3 : 2 ^ 23 ≤ 2 ^ f.p := Nat.pow_le_pow_right (by decide) h.large.1
    have h4 : 2 ^ 23 = 8388608 := by norm_num
    omega
  have hs2 := Nat.le_trans (Nat.mul_le_mul_right (sp f.p (quickSqrt I v)) hP) hs
  have hpos : (0 : ℝ) < one I := by exact_mod_cast one_pos h
  have e1 := sqrt_units h hlt.le
  have e2 : (magnitude f (quickSqrt I v) : ℝ) * one I = units f.p (quickSqrt I v) := by exact_mod_cast mag_eq h (show quickSqrt I v ≤ infinity I by omega)
  generalize hN : units f.p v * one I = N at *
  have hS2 : Real.sqrt (N : ℝ) * Real.sqrt (N : ℝ) = N := Real.mul_self_sqrt (by positivity)
  have hS0 : 0 ≤ Real.sqrt (N : ℝ) := Real.sqrt_nonneg _
  have n1 : 8 * ((units f.p (quickSqrt I v) : ℝ) * units f.p (quickSqrt I v)) ≤ 9 * N := by exact_mod_cast hnear
  have n2 : (N : ℝ) < units f.p (quickSqrt I v + 1) * units f.p (quickSqrt I v + 1) := by exact_mod_cast habove
  have n3 : (8388608 : ℝ) * sp f.p (quickSqrt I v) ≤ units f.p (quickSqrt I v) := by exact_mod_cast hs2
  have n4 : (units f.p (quickSqrt I v + 1) : ℝ) = units f.p (quickSqrt I v) + sp f.p (quickSqrt I v) := by exact_mod_cast hu
  rw [n4] at n2
  have n5 : (0 : ℝ) ≤ sp f.p (quickSqrt I v) := by positivity
  have n6 : (0 : ℝ) ≤ units f.p (quickSqrt I v) := by positivity
  rw [← e1] at hS2 hS0
  rw [← e2] at n1 n2 n3 n6
  generalize (sp f.p (quickSqrt I v) : ℝ) = u at *
  generalize Real.sqrt (magnitude f v : ℝ) = S at *
  generalize (magnitude f (quickSqrt I v) : ℝ) = Q at *
  generalize (one I : ℝ) = O at *
  -- Q O ≤ 1.061 S O, and S O < Q O + u
  have k1 : Q * O ≤ 1061 / 1000 * (S * O) := by
    by_contra hc
    have := not_le.1 hc
    nlinarith
  have k2 : S * O < Q * O + u := by
    by_contra hc
    have := not_lt.1 hc
    nlinarith
  rw [abs_le]
  constructor
  · have : (939 / 1000 * S) * O ≤ Q * O := by nlinarith
    have := le_of_mul_le_mul_right this hpos
    linarith
  · have : Q * O ≤ (1061 / 1000 * S) * O := by linarith
    have := le_of_mul_le_mul_right this hpos
    linarith

/-- The bytes of 2 are those of a normal number, and its quick root is 1.5. -/
example : quickSqrt float32 0x40000000 = 0x3fc00000 := by decide

/-- C185: the quick square root of zero is not zero, nor near it on the scale of small numbers: it is above the root of every number
below the least normal one. -/
theorem quick_sqrt_zero_refuted (hn : IsNative I f) : 0 < magnitude f (quickSqrt I 0) ∧ ∀ v, Plain f v → magnitude f v < 2 ^ (-f.bias : ℤ) →
    magnitude f v < magnitude f (quickSqrt I 0) ^ 2 := by
  have h := hn.agrees
  have h0 : 0 < infinity I := by rw [infinity_val h]; positivity
  obtain ⟨hq, hroom⟩ := quick_eq h h0
  have hpp := Nat.two_pow_pos f.p
  obtain ⟨b, hb, hb63⟩ := bias_odd h
  have e : 2 ^ f.p = 2 * 2 ^ (f.p - 1) := by rw [← pow_succ']; congr 1; have := h.large.1; omega
  have hpos : (0 : ℚ) < one I := by exact_mod_cast one_pos h
  have hm := mag_eq h (show quickSqrt I 0 ≤ infinity I by omega)
  -- its bytes: field b, fraction one half
  have hlt : 2 ^ (f.p - 1) < 2 ^ f.p := by have := Nat.two_pow_pos (f.p - 1); omega
  have hqv : quickSqrt I 0 = 2 ^ f.p * b + 2 ^ (f.p - 1) := by rw [hq, hb, e]; simp; ring
  have hu : units f.p (quickSqrt I 0) = 3 * 2 ^ (f.p - 1) * 2 ^ (b - 1) := by
    unfold units
    rw [hqv, Nat.mul_add_div (Nat.two_pow_pos _), Nat.div_eq_of_lt hlt, Nat.mul_add_mod, Nat.mod_eq_of_lt hlt, if_neg (by omega),
      Nat.add_zero, e]
    ring
  have hone : one I = 2 ^ (f.p - 1) * 2 ^ (b - 1) * (8 * 2 ^ (b - 1)) := by
    rw [one_eq h, show 8 = 2 ^ 3 by rfl, ← pow_add, ← pow_add, ← pow_add]
    unfold Kof
    congr 1
    have := h.large.1
    omega
  constructor
  · rw [hu] at hm
    have h1 : (0 : ℚ) < ((3 * 2 ^ (f.p - 1) * 2 ^ (b - 1) : ℕ) : ℚ) := by exact_mod_cast (by positivity)
    rw [← hm] at h1
    exact (mul_pos_iff_of_pos_right hpos).1 h1
  · intro v hv hsmall
    refine lt_of_lt_of_le hsmall ?_
    have e1 : magnitude f (quickSqrt I 0) = 3 / (8 * 2 ^ (b - 1)) := by
      rw [eq_div_iff (by positivity)]
      apply mul_right_cancel₀ hpos.ne'
      rw [mul_right_comm, hm, hu, hone]
      push_cast
      ring
    rw [e1, hb]
    obtain ⟨c, rfl⟩ : ∃ c, b = c + 1 := ⟨b - 1, by omega⟩
    have e2 : (2 : ℚ) ^ (-((2 * (c + 1) + 1 : ℕ) : ℤ)) = 1 / (8 * (2 ^ c * 2 ^ c)) := by
      rw [zpow_neg, zpow_natCast, ← one_div]
      congr 1
      rw [show 2 * (c + 1) + 1 = c + c + 3 by omega, pow_add, pow_add]
      ring
    rw [e2, Nat.add_sub_cancel, div_pow, div_le_div_iff₀ (by positivity) (by positivity)]
    have : (0 : ℚ) < 2 ^ c * 2 ^ c := by positivity
    nlinarith

/-! ### C186: the root -/

/-- C186: taking the square root ends for every finite number, with a finite number. -/
theorem sqrt_returns (hn : IsNative I f) {v : Nat} (hv : Plain f v) :
    ∃ r, Plain f r ∧ ∃ enough, ∀ fuel, enough ≤ fuel → sqrt I fuel v = some (some r) := by
  have h := hn.agrees
  have hb := native_bias hn
  have hlt := (plain_lt h).1 hv
  have mono : ∀ {fuel r n : Nat}, sqrt I fuel v = some (some r) → fuel ≤ n → sqrt I n v = some (some r) := by
    intro fuel r n hs hle
    unfold sqrt at hs ⊢
    rw [if_neg (by omega)] at hs ⊢
    cases hl : sqrtLoop I v (epsilon I) fuel (quickSqrt I v) (fmul I (epsilon I) (ofNat I 2)) with
    | none => rw [hl] at hs; cases hs
    | some r' =>
      rw [hl] at hs
      rw [loop_mono _ _ _ _ hl n hle]
      exact hs
  by_cases h0 : v = 0
  · subst h0
    have hz : ∃ r, sqrt I 2 0 = some (some r) ∧ r < infinity I := by
      rcases hn with ⟨rfl, rfl⟩ | ⟨rfl, rfl⟩ | ⟨rfl, rfl⟩
      · exact ⟨524288000, by decide +kernel, by decide +kernel⟩
      · exact ⟨2299087609772638208, by decide +kernel, by decide +kernel⟩
      · exact ⟨42527507419829505691479030184477196288, by decide +kernel, by decide +kernel⟩
    obtain ⟨r, h1, h2⟩ := hz
    exact ⟨r, (plain_lt h).2 h2, 2, fun fuel hf => mono h1 hf⟩
  · obtain ⟨fuel, r, lo, h1, h2⟩ := run_result h (by omega) hlt (by omega)
    have hfin : r < infinity I := by obtain ⟨_, w, _, _, _, _, w5, _⟩ := h2; exact w5
    exact ⟨r, (plain_lt h).2 hfin, fuel, fun n hf => mono h1 hf⟩

/-- What the loop returned is the result described in `Verif.Sqrt.Result`. -/
theorem run_is (hn : IsNative I f) {v fuel r : Nat} (hv : Plain f v) (h0 : v ≠ 0) (hs : sqrt I fuel v = some (some r)) :
    ∃ lo, Result I f v lo r := by
  have h := hn.agrees
  have hb := native_bias hn
  have hlt := (plain_lt h).1 hv
  obtain ⟨fuel', r', lo, h1, h2⟩ := run_result h (by omega) hlt (by omega)
  unfold sqrt at h1 hs
  rw [if_neg (by omega)] at h1 hs
  cases hl : sqrtLoop I v (epsilon I) fuel (quickSqrt I v) (fmul I (epsilon I) (ofNat I 2)) with
  | none => rw [hl] at hs; cases hs
  | some a =>
    cases hl' : sqrtLoop I v (epsilon I) fuel' (quickSqrt I v) (fmul I (epsilon I) (ofNat I 2)) with
    | none => rw [hl'] at h1; cases h1
    | some a' =>
      rw [hl] at hs
      rw [hl'] at h1
      have m1 := loop_mono _ _ _ _ hl (fuel + fuel') (by omega)
      have m2 := loop_mono _ _ _ _ hl' (fuel + fuel') (by omega)
      rw [m1] at m2
      simp only [Option.map_some, Option.some.injEq] at hs h1 m2
      exact ⟨lo, by rw [← hs, m2, h1]; exact h2⟩

/-- C186: the result is within 5ε of the root of the number, or within 5ε of it in proportion where the root is above one. -/
theorem sqrt_close (hn : IsNative I f) {v fuel r : Nat} (hv : Plain f v) (hs : sqrt I fuel v = some (some r)) :
    |(magnitude f r : ℝ) - Real.sqrt (magnitude f v : ℝ)| ≤ 5 * ((1 : ℝ) / 2 ^ f.p) * max 1 (Real.sqrt (magnitude f v : ℝ)) := by
  have h := hn.agrees
  have hb := native_bias hn
  have hlt := (plain_lt h).1 hv
  by_cases h0 : v = 0
  · subst h0
    obtain ⟨r', hr', enough, he⟩ := sqrt_returns hn hv
    have e0 : magnitude f 0 = 0 := by
      rw [magnitude_plain h hv.1]; simp [units]
    have hz : ∃ r, sqrt I 2 0 = some (some r) ∧ r ≤ epsilon I ∧ r < infinity I := by
      rcases hn with ⟨rfl, rfl⟩ | ⟨rfl, rfl⟩ | ⟨rfl, rfl⟩
      · exact ⟨524288000, by decide +kernel, by decide +kernel, by decide +kernel⟩
      · exact ⟨2299087609772638208, by decide +kernel, by decide +kernel, by decide +kernel⟩
      · exact ⟨42527507419829505691479030184477196288, by decide +kernel, by decide +kernel, by decide +kernel⟩
    obtain ⟨q, h1, h2, h3⟩ := hz
    have hq : r = q := by
      unfold sqrt at hs h1
      rw [if_neg (by omega)] at hs h1
      cases hl : sqrtLoop I 0 (epsilon I) fuel (quickSqrt I 0) (fmul I (epsilon I) (ofNat I 2)) with
      | none => rw [hl] at hs; cases hs
      | some a =>
        cases hl' : sqrtLoop I 0 (epsilon I) 2 (quickSqrt I 0) (fmul I (epsilon I) (ofNat I 2)) with
        | none => rw [hl'] at h1; cases h1
        | some a' =>
          rw [hl] at hs
          rw [hl'] at h1
          have m1 := loop_mono _ _ _ _ hl (fuel + 2) (by omega)
          have m2 := loop_mono _ _ _ _ hl' (fuel + 2) (by omega)
          rw [m1] at m2
          simp only [Option.map_some, Option.some.injEq] at hs h1 m2
          rw [← hs, m2, h1]
    subst hq
    have hpos : (0 : ℝ) < one I := by exact_mod_cast one_pos h
    have m1 : (magnitude f r : ℝ) * one I = units f.p r := by exact_mod_cast mag_eq h h3.le
    have m2 : (units f.p (epsilon I) : ℝ) * 2 ^ f.p = one I := by exact_mod_cast (eps_units h (by omega)).1
    have m3 : (units f.p r : ℝ) ≤ units f.p (epsilon I) := by exact_mod_cast units_le h2
    have m4 : (0 : ℝ) ≤ magnitude f r := by exact_mod_cast mag_nonneg h h3.le
    rw [e0]
    simp only [Rat.cast_zero, Real.sqrt_zero, sub_zero]
    rw [abs_of_nonneg m4, max_eq_left (by norm_num : (0 : ℝ) ≤ 1), mul_one]
    have hP : (0 : ℝ) < 2 ^ f.p := by positivity
    have m5 : (magnitude f r : ℝ) ≤ 1 / 2 ^ f.p := by
      rw [le_div_iff₀ hP]
      apply le_of_mul_le_mul_right _ hpos
      calc (magnitude f r : ℝ) * 2 ^ f.p * one I = (magnitude f r : ℝ) * one I * 2 ^ f.p := by ring
        _ ≤ units f.p (epsilon I) * 2 ^ f.p := by rw [m1]; exact mul_le_mul_of_nonneg_right m3 hP.le
        _ = 1 * one I := by rw [m2, one_mul]
    have : (0 : ℝ) < 1 / 2 ^ f.p := by positivity
    linarith
  · obtain ⟨lo, hr⟩ := run_is hn hv h0 hs
    exact result_close h (by omega) hr hlt.le

theorem four_units (hn : IsNative I f) {v : Nat} (hv : Plain f v) (h4 : 4 ≤ magnitude f v) : 4 * one I ≤ units f.p v ∧ v ≠ 0 := by
  have h := hn.agrees
  have hlt := (plain_lt h).1 hv
  have hpos : (0 : ℚ) < one I := by exact_mod_cast one_pos h
  have h1 : (4 : ℚ) * one I ≤ magnitude f v * one I := mul_le_mul_of_nonneg_right h4 hpos.le
  rw [mag_eq h hlt.le] at h1
  have h2 : 4 * one I ≤ units f.p v := by exact_mod_cast h1
  refine ⟨h2, ?_⟩
  rintro rfl
  have := one_pos h
  simp [units] at h2
  omega

/-- What holds of every result from 4 on. -/
theorem neighbours (hn : IsNative I f) {v r lo : Nat} (hv : Plain f v) (h4 : 4 ≤ magnitude f v) (hr : Result I f v lo r) :
    (magnitude f r ^ 2 ≤ magnitude f v ∧ magnitude f v < magnitude f (r + 1) ^ 2) ∨
    (magnitude f (r - 1) ^ 2 < magnitude f v ∧ magnitude f v < magnitude f r ^ 2) := by
  have h := hn.agrees
  have hb := native_bias hn
  have hlt := (plain_lt h).1 hv
  obtain ⟨h4', _⟩ := four_units hn hv h4
  obtain ⟨_, hc⟩ := result_fixed h (by omega) hr h4'
  have hA := hr.1
  have hroom := hA.room
  have hpp := Nat.two_pow_pos f.p
  have up : ∀ {d : Nat}, d ≤ infinity I → (units f.p v * one I < units f.p d * units f.p d ↔ magnitude f v < magnitude f d ^ 2) := by
    intro d hd
    have := sq_mag_le' h hd hlt.le
    rw [← not_le, ← not_le, not_iff_not]
    exact this
  rcases hc with rfl | ⟨rfl, hc⟩
  · exact .inl ⟨(sq_mag_le' h (by omega) hlt.le).1 hA.below, (up (by omega)).1 hA.above⟩
  · refine .inr ⟨?_, (up (by omega)).1 hA.above⟩
    rw [Nat.add_sub_cancel]
    refine lt_of_le_of_ne ((sq_mag_le' h (by omega) hlt.le).1 hA.below) fun e => ?_
    have h1 := (sq_mag_le h (d := lo) (v := v) (by omega) hlt.le 1 1)
    have h2 : units f.p v * one I ≤ units f.p lo * units f.p lo := by
      by_contra hcon
      have := not_le.1 hcon
      have hpos : (0 : ℚ) < one I := by exact_mod_cast one_pos h
      have q1 : ((units f.p lo * units f.p lo : ℕ) : ℚ) < ((units f.p v * one I : ℕ) : ℚ) := by exact_mod_cast this
      push_cast at q1
      rw [← mag_eq h (show lo ≤ infinity I by omega), ← mag_eq h hlt.le, ← e] at q1
      apply lt_irrefl (magnitude f lo ^ 2 * (one I * one I))
      calc _ = magnitude f lo * one I * (magnitude f lo * one I) := by ring
        _ < _ := q1
        _ = _ := by ring
    omega

/-- C186: from 4 on the result is one of the two numbers of the type around the root: `r ≤ √v < r⁺` or `r⁻ < √v < r`.  `_partial`: below 4
only `sqrt_close` holds. -/
theorem sqrt_neighbours_partial (hn : IsNative I f) {v fuel r : Nat} (hv : Plain f v) (h4 : 4 ≤ magnitude f v)
    (hs : sqrt I fuel v = some (some r)) :
    (magnitude f r ^ 2 ≤ magnitude f v ∧ magnitude f v < magnitude f (r + 1) ^ 2) ∨
    (magnitude f (r - 1) ^ 2 < magnitude f v ∧ magnitude f v < magnitude f r ^ 2) := by
  obtain ⟨lo, hr⟩ := run_is hn hv (four_units hn hv h4).2 hs
  exact neighbours hn hv h4 hr

/-- C186: from 4 on, a root that the type can hold is the result.  `_partial`: below 4 see `sqrt_zero_refuted` and `sqrt_small_refuted`. -/
theorem sqrt_exact_partial (hn : IsNative I f) {v fuel r d : Nat} (hv : Plain f v) (h4 : 4 ≤ magnitude f v) (hd : Plain f d)
    (hsq : magnitude f d ^ 2 = magnitude f v) (hs : sqrt I fuel v = some (some r)) : r = d := by
  have h := hn.agrees
  have hb := native_bias hn
  have hlt := (plain_lt h).1 hv
  have hdl := (plain_lt h).1 hd
  obtain ⟨h4', h0⟩ := four_units hn hv h4
  obtain ⟨lo, hr⟩ := run_is hn hv h0 hs
  obtain ⟨_, hc⟩ := result_fixed h (by omega) hr h4'
  have hpos : (0 : ℚ) < one I := by exact_mod_cast one_pos h
  have e : units f.p d * units f.p d = units f.p v * one I := by
    have : ((units f.p d : ℚ) * units f.p d) = units f.p v * one I := by
      rw [← mag_eq h hdl.le, ← mag_eq h hlt.le, ← hsq]; ring
    exact_mod_cast this
  have h1 : d ≤ lo := (below_iff hr.1).2 e.le
  have h2 : lo ≤ d := by
    by_contra hcon
    have h3 := units_lt (p := f.p) (show d < lo by omega)
    have := Nat.mul_lt_mul'' h3 h3
    have := hr.1.below
    omega
  have h3 : d = lo := by omega
  subst h3
  rcases hc with hc | ⟨_, hc⟩
  · exact hc
  · omega

/-- Nine has the root three. -/
example : sqrt float32 20 0x41100000 = some (some 0x40400000) := by decide +kernel

/-- C186: the square root of zero is not zero, in any of the types. -/
theorem sqrt_zero_refuted (hn : IsNative I f) : ∃ fuel r, sqrt I fuel 0 = some (some r) ∧ 0 < magnitude f r := by
  rcases hn with ⟨rfl, rfl⟩ | ⟨rfl, rfl⟩ | ⟨rfl, rfl⟩
  · refine ⟨2, 524288000, by decide +kernel, ?_⟩
    norm_num [magnitude, Spec.field, fraction, binary32]
  · refine ⟨2, 2299087609772638208, by decide +kernel, ?_⟩
    norm_num [magnitude, Spec.field, fraction, binary64]
  · refine ⟨2, 42527507419829505691479030184477196288, by decide +kernel, ?_⟩
    norm_num [magnitude, Spec.field, fraction, binary128]

/-- C186: small numbers get roots that are far off in proportion: a thousand times the root for the least positive number of `float`, and
one part in a thousand for a normal number near `2⁻⁴⁰`. -/
theorem sqrt_small_refuted : (∃ r, sqrt float32 20 1 = some (some r) ∧ 1000 ^ 2 * magnitude binary32 1 < magnitude binary32 r ^ 2) ∧
    ∃ v r, Plain binary32 v ∧ 2 ^ (-126 : ℤ) ≤ magnitude binary32 v ∧ sqrt float32 20 v = some (some r) ∧
      1001 ^ 2 * magnitude binary32 v < (1000 * magnitude binary32 r) ^ 2 := by
  refine ⟨⟨524288003, by decide +kernel, ?_⟩, 0x2c000000 - 1, 901076309, ?_, ?_, by decide +kernel, ?_⟩
  · norm_num [magnitude, Spec.field, fraction, binary32]
  · norm_num [Plain, Spec.Finite, Spec.field, binary32]
  · norm_num [magnitude, Spec.field, fraction, binary32]
  · norm_num [magnitude, Spec.field, fraction, binary32]

/-- C186: the result is not always the nearest number: here the one before it is nearer, the root being below the middle. -/
theorem sqrt_nearest_refuted : ∃ v r, Plain binary32 v ∧ 4 ≤ magnitude binary32 v ∧ sqrt float32 20 v = some (some r) ∧
    magnitude binary32 v < ((magnitude binary32 (r - 1) + magnitude binary32 r) / 2) ^ 2 := by
  refine ⟨1082134143, 1073743680, ?_, ?_, by decide +kernel, ?_⟩
  · norm_num [Plain, Spec.Finite, Spec.field, binary32]
  · norm_num [magnitude, Spec.field, fraction, binary32]
  · norm_num [magnitude, Spec.field, fraction, binary32]

/-- C186: at compile time the root is taken from another first guess.  It ends too, for every number whose half is not zero, near the root. -/
theorem sqrt_const_close (hn : IsNative I f) {v : Nat} (hv : Plain f v) (h2 : 2 ≤ v) : ∃ fuel r, sqrtConst I fuel v = some (some r) ∧ Plain f r ∧
    |(magnitude f r : ℝ) - Real.sqrt (magnitude f v : ℝ)| ≤ 5 * ((1 : ℝ) / 2 ^ f.p) * max 1 (Real.sqrt (magnitude f v : ℝ)) ∧
    (4 ≤ magnitude f v →
      (magnitude f r ^ 2 ≤ magnitude f v ∧ magnitude f v < magnitude f (r + 1) ^ 2) ∨
      (magnitude f (r - 1) ^ 2 < magnitude f v ∧ magnitude f v < magnitude f r ^ 2)) := by
  have h := hn.agrees
  have hb := native_bias hn
  have hlt := (plain_lt h).1 hv
  have h0 : 0 < fdiv I v (ofNat I 2) := by
    unfold fdiv
    rw [h.bit, units_two h]
    apply nearest_ge h (c := 1) (by have := one_pos h; omega) _ (by have := infinity_val h; have := Nat.two_pow_pos f.p; omega)
    have u1 : units f.p 1 = 1 := by
      have : 1 < 2 ^ f.p := Nat.one_lt_two_pow (by have := h.large.1; omega)
      unfold units
      rw [Nat.div_eq_of_lt this, if_pos rfl, Nat.mod_eq_of_lt this]
    have u2 : units f.p 2 ≤ units f.p v := units_le h2
    have u3 : units f.p 1 < units f.p 2 := units_lt_succ f.p 1
    rw [u1] at u3 ⊢
    calc 2 * one I * 1 = 2 * one I := by ring
      _ ≤ _ := Nat.mul_le_mul_right _ (by omega)
  obtain ⟨fuel, r, lo, h1, hr⟩ := const_result h (by omega) hlt h0
  have hfin : r < infinity I := by obtain ⟨_, w, _, _, _, _, w5, _⟩ := hr; exact w5
  exact ⟨fuel, r, h1, (plain_lt h).2 hfin, result_close h (by omega) hr hlt.le, fun h4 => neighbours hn hv h4 hr⟩

/-! ### C187: roots of integers -/

theorem intRoot_of {fuel a k : Nat} (h : intRoot I fuel a = some k) : ∃ r, sqrt I fuel (ofNat I a) = some (some r) ∧ k = units I.bit r / one I := by
  unfold intRoot at h
  cases hs : sqrt I fuel (ofNat I a) with
  | none => rw [hs] at h; cases h
  | some o =>
    cases o with
    | none => rw [hs] at h; cases h
    | some r => rw [hs] at h; exact ⟨r, rfl, by simpa using h.symm⟩

theorem native64 : IsNative float64 binary64 := .inr (.inl ⟨rfl, rfl⟩)

theorem int_ends' (hn : IsNative I f) (a : Nat) (ha : a < 2 ^ (2 * f.p)) : ∃ k enough, ∀ fuel, enough ≤ fuel → intRoot I fuel a = some k := by
  have h := hn.agrees
  have hfin := int_finite h (native_bias hn) ha
  obtain ⟨r, _, enough, he⟩ := sqrt_returns hn ((plain_lt h).2 hfin)
  refine ⟨units I.bit r / one I, enough, fun fuel hf => ?_⟩
  unfold intRoot
  rw [he fuel hf]

theorem pow64_le : 2 ^ 64 ≤ 2 ^ (2 * binary64.p) := Nat.pow_le_pow_right (by decide) (by decide)

theorem int_ends (a : Nat) (ha : a < 2 ^ 64) : ∃ k enough, ∀ fuel, enough ≤ fuel → intRoot float64 fuel a = some k :=
  int_ends' native64 a (lt_of_lt_of_le ha pow64_le)

theorem int_result {fuel a k : Nat} (h4 : 4 ≤ a) (ha : a < 2 ^ 64) (hs : intRoot float64 fuel a = some k) :
    ∃ lo r, Result float64 binary64 (ofNat float64 a) lo r ∧ k = units binary64.p r / one float64 := by
  have h := native64.agrees
  have hfin := int_finite h (native_bias native64) (a := a) (lt_of_lt_of_le ha pow64_le)
  obtain ⟨r, h1, h2⟩ := intRoot_of hs
  have hge := int_ge h h4
  have h0 : ofNat float64 a ≠ 0 := by
    intro e
    rw [e] at hge
    have h1 := one_pos h
    have h2 : units binary64.p 0 = 0 := by simp [units]
    omega
  obtain ⟨lo, hr⟩ := run_is native64 ((plain_lt h).2 hfin) h0 h1
  exact ⟨lo, r, hr, h2⟩

/-- C187: for every integer from 4 to `2^49` the integer part of the square root is the integer square root.  `_partial`: for numbers above see
`int_root_refuted` and `int_root_bounds`. -/
theorem int_root_exact_partial {a : Nat} (h4 : 4 ≤ a) (ha : a ≤ 2 ^ 49) :
    ∃ enough, ∀ fuel, enough ≤ fuel → intRoot float64 fuel a = some (Nat.sqrt a) := by
  have hlt : a < 2 ^ 64 := lt_of_le_of_lt ha (by norm_num)
  obtain ⟨k, enough, he⟩ := int_ends a hlt
  refine ⟨enough, fun fuel hf => ?_⟩
  obtain ⟨lo, r, hr, hk⟩ := int_result h4 hlt (he fuel hf)
  have hP : 8 * a ≤ 2 ^ binary64.p := by
    have : 2 ^ binary64.p = 8 * 2 ^ 49 := by decide +kernel
    omega
  rw [he fuel hf, hk, root_exact native64.agrees (native_bias native64) h4 hP hr]

/-- C187: for every integer of 64 bits from 4 on the integer part of the square root is at least the integer square root, and from 5 on it is
less than the number less two. -/
theorem int_root_bounds {fuel a k : Nat} (h4 : 4 ≤ a) (ha : a < 2 ^ 64) (hs : intRoot float64 fuel a = some k) :
    Nat.sqrt a ≤ k ∧ (5 ≤ a → k + 2 < a) := by
  have h := native64.agrees
  obtain ⟨lo, r, hr, hk⟩ := int_result h4 ha hs
  have ha' : a < 2 ^ (2 * binary64.p) := lt_of_lt_of_le ha pow64_le
  rw [hk]
  constructor
  · exact (Nat.le_div_iff_mul_le (one_pos h)).2 (root_ge h (native_bias native64) h4 ha' hr)
  · intro h5
    exact root_small h (native_bias native64) h5 ha' hr

/-- C187: near `2^64` the integer part of the root is too great by one. -/
theorem int_root_refuted : intRoot float64 20 (2 ^ 64 - 1) = some (2 ^ 32) ∧ Nat.sqrt (2 ^ 64 - 1) = 2 ^ 32 - 1 := by
  refine ⟨by decide +kernel, ?_⟩
  exact Nat.eq_sqrt.2 ⟨by norm_num, by norm_num⟩ |>.symm

/-- The root used by the functions on primes: the one of `double`, for numbers of 64 bits. -/
def nativeRoot (fuel a : Nat) : Nat := (intRoot float64 fuel a).getD 0

/-- `is_prime_num` asks for one root only. -/
theorem is_prime_at {root : Nat → Nat} {n : Nat} (h4 : 4 ≤ n) (h1 : Nat.sqrt n ≤ root n) (h2 : 5 ≤ n → root n + 2 < n) :
    Arith.isPrimeNum root n = true ↔ n.Prime := by
  have hroot : Arith.Spec.Root (fun a => if a = n then root n else Nat.sqrt a) := by
    intro a ha
    by_cases e : a = n
    · subst e
      simp only [if_true]
      refine ⟨?_, h2 ha⟩
      exact lt_of_lt_of_le (Nat.lt_succ_sqrt a) (Nat.mul_le_mul (Nat.succ_le_succ h1) (Nat.succ_le_succ h1))
    · simp only [if_neg e]
      exact Arith.root_exists a ha
  rw [← Arith.is_prime_correct hroot h4]
  unfold Arith.isPrimeNum Arith.noPreCheck
  simp only [if_true]

/-- C187: `is_prime_num` decides primality for every native unsigned integer from 4 on, with the square root it uses. -/
theorem is_prime_native {n : Nat} (h4 : 4 ≤ n) (hn : n < 2 ^ 64) :
    ∃ enough, ∀ fuel, enough ≤ fuel → (Arith.isPrimeNum (nativeRoot fuel) n = true ↔ n.Prime) := by
  obtain ⟨k, enough, he⟩ := int_ends n hn
  refine ⟨enough, fun fuel hf => ?_⟩
  obtain ⟨hb1, hb2⟩ := int_root_bounds h4 hn (he fuel hf)
  have hk : nativeRoot fuel n = k := by unfold nativeRoot; rw [he fuel hf, Option.getD_some]
  exact is_prime_at h4 (by rw [hk]; exact hb1) (by rw [hk]; exact hb2)

/-- C187: with enough iterations the root of `double` has, for all numbers of 64 bits at once, what the theorems on primes and factors (C37, C38, C39,
C184) ask of it. -/
theorem native_root_suffices : ∃ enough, ∀ fuel, enough ≤ fuel →
    Arith.Spec.Root (fun a => if a < 2 ^ 64 then nativeRoot fuel a else Nat.sqrt a) := by
  have all : ∀ m, m ≤ 2 ^ 64 → ∃ enough, ∀ fuel, enough ≤ fuel → ∀ a, a < m → ∃ k, intRoot float64 fuel a = some k := by
    intro m
    induction m with
    | zero => intro _; exact ⟨0, fun _ _ a ha => absurd ha (by omega)⟩
    | succ m ih =>
      intro hm
      obtain ⟨e1, h1⟩ := ih (by omega)
      obtain ⟨k, e2, h2⟩ := int_ends m (by omega)
      refine ⟨max e1 e2, fun fuel hf a ha => ?_⟩
      by_cases e : a = m
      · subst e; exact ⟨k, h2 fuel (le_trans (le_max_right _ _) hf)⟩
      · exact h1 fuel (le_trans (le_max_left _ _) hf) a (by omega)
  obtain ⟨enough, he⟩ := all (2 ^ 64) (le_refl _)
  refine ⟨enough, fun fuel hf a ha => ?_⟩
  by_cases e : a < 2 ^ 64
  · simp only [if_pos e]
    obtain ⟨k, hk⟩ := he fuel hf a e
    have hk' : nativeRoot fuel a = k := by unfold nativeRoot; rw [hk, Option.getD_some]
    obtain ⟨hb1, hb2⟩ := int_root_bounds (by omega) e hk
    rw [hk']
    refine ⟨?_, hb2 ha⟩
    have h1 := Nat.lt_succ_sqrt a
    have h2 := Nat.mul_le_mul (Nat.succ_le_succ hb1) (Nat.succ_le_succ hb1)
    exact lt_of_lt_of_le h1 h2
  · simp only [if_neg e]
    exact Arith.root_exists a ha

end ELC.Sqrt
