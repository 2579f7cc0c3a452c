import Verif.Trig.Lemmas
/-! C208: tangent, cotangent, secant and cosecant of fractions. -/
namespace ELC.Trig
open ELC.Series

/-- C208, the tangent: when the cosine is at least twice the precision, the result is a number, at most
`3ε/cos²x` from the tangent.  Missing: precision `ε` itself, and arguments close to a pole, where the claim is
false (`poles_refuted`). -/
theorem tan_partial {pi x ε : ℚ} (hε : 0 < ε) (h1 : ε ≤ 1) (hpi : Within pi Real.pi ε) (hx : 2 * ε ≤ |Real.cos x|) :
    ∃ r : ℚ, Gives (tan pi x ε) (some r) ∧ |(r : ℝ) - Real.tan x| ≤ 3 * ε / Real.cos x ^ 2 := by
  obtain ⟨s, gs, hs⟩ := sin_within_partial x hε h1
  obtain ⟨c, gc, hc⟩ := cos_within_partial pi x hε h1 hpi
  unfold Within at hs hc
  obtain ⟨hne, herr⟩ := quot_err hs hc (cos_rat_ne x) hx (Real.abs_sin_le_one _) (Real.abs_cos_le_one _)
  have hc0 : c ≠ 0 := by exact_mod_cast hne
  refine ⟨s / c, ?_, ?_⟩
  · have := gives_two gs gc quot
    rwa [quot, if_neg hc0] at this
  · rw [Real.tan_eq_sin_div_cos]
    push_cast at herr ⊢
    rw [show (3 : ℝ) * ε = 2 * (ε / 2 + ε) by ring]
    exact herr

/-- C208, the cotangent: when the sine is at least the precision, the result is at most `3ε/sin²x` from the
cotangent. -/
theorem cot_partial {pi x ε : ℚ} (hε : 0 < ε) (h1 : ε ≤ 1) (hpi : Within pi Real.pi ε) (hx : ε ≤ |Real.sin x|) :
    ∃ r : ℚ, Gives (cot pi x ε) (some r) ∧ |(r : ℝ) - Real.cos x / Real.sin x| ≤ 3 * ε / Real.sin x ^ 2 := by
  obtain ⟨s, gs, hs⟩ := sin_within_partial x hε h1
  obtain ⟨c, gc, hc⟩ := cos_within_partial pi x hε h1 hpi
  unfold Within at hs hc
  have hεr : (0 : ℝ) < ε := by exact_mod_cast hε
  have hne0 : Real.sin x ≠ 0 := abs_pos.mp (by linarith)
  obtain ⟨hne, herr⟩ := quot_err hc hs hne0 (by push_cast; linarith) (Real.abs_cos_le_one _) (Real.abs_sin_le_one _)
  have hs0 : s ≠ 0 := by exact_mod_cast hne
  refine ⟨c / s, ?_, ?_⟩
  · have := gives_two gc gs quot
    rwa [quot, if_neg hs0] at this
  · push_cast at herr ⊢
    rw [show (3 : ℝ) * ε = 2 * (ε + ε / 2) by ring]
    exact herr

/-- C208, the secant: when the cosine is at least twice the precision, the result is at most `2ε/cos²x` from it. -/
theorem sec_partial {pi x ε : ℚ} (hε : 0 < ε) (h1 : ε ≤ 1) (hpi : Within pi Real.pi ε) (hx : 2 * ε ≤ |Real.cos x|) :
    ∃ r : ℚ, Gives (sec pi x ε) (some r) ∧ |(r : ℝ) - 1 / Real.cos x| ≤ 2 * ε / Real.cos x ^ 2 := by
  obtain ⟨c, gc, hc⟩ := cos_within_partial pi x hε h1 hpi
  unfold Within at hc
  obtain ⟨hne, herr⟩ := quot_err (s := 1) (S := 1) (es := 0) (by simp) hc (cos_rat_ne x) hx (by simp)
    (Real.abs_cos_le_one _)
  have hc0 : c ≠ 0 := by exact_mod_cast hne
  refine ⟨1 / c, ?_, ?_⟩
  · have := gives_map gc (quot 1)
    rwa [quot, if_neg hc0] at this
  · push_cast at herr ⊢
    rw [zero_add] at herr
    exact herr

/-- C208, the cosecant: when the sine is at least the precision, the result is at most `ε/sin²x` from it. -/
theorem csc_partial {x ε : ℚ} (hε : 0 < ε) (h1 : ε ≤ 1) (hx : ε ≤ |Real.sin x|) :
    ∃ r : ℚ, Gives (csc x ε) (some r) ∧ |(r : ℝ) - 1 / Real.sin x| ≤ ε / Real.sin x ^ 2 := by
  obtain ⟨s, gs, hs⟩ := sin_within_partial x hε h1
  unfold Within at hs
  have hεr : (0 : ℝ) < ε := by exact_mod_cast hε
  have hne0 : Real.sin x ≠ 0 := abs_pos.mp (by linarith)
  obtain ⟨hne, herr⟩ := quot_err (s := 1) (S := 1) (es := 0) (by simp) hs hne0 (by push_cast; linarith) (by simp)
    (Real.abs_sin_le_one _)
  have hs0 : s ≠ 0 := by exact_mod_cast hne
  refine ⟨1 / s, ?_, ?_⟩
  · have := gives_map gs (quot 1)
    rwa [quot, if_neg hs0] at this
  · push_cast at herr ⊢
    rw [zero_add, show (2 : ℝ) * (ε / 2) = ε by ring] at herr
    exact herr

-- the argument 1 with a quarter as precision
example : 2 * ((1 / 4 : ℚ) : ℝ) ≤ |Real.cos ((1 : ℚ) : ℝ)| ∧ ((1 / 4 : ℚ) : ℝ) ≤ |Real.sin ((1 : ℚ) : ℝ)| := by
  constructor
  · have := Real.one_sub_sq_div_two_le_cos (x := 1)
    refine le_trans ?_ (le_abs_self _)
    push_cast
    linarith
  · have := Real.sin_gt_sub_cube (x := 1) (by norm_num)
    refine le_trans ?_ (le_abs_self _)
    push_cast
    linarith

/-- C208, all arguments but the poles: for every wanted accuracy there is a precision from which on the four functions
keep it.  (No fraction is a pole of the tangent, and only zero is one of the cotangent.) -/
theorem converge (x : ℚ) {δ : ℝ} (hδ : 0 < δ) : ∃ ε₀ : ℚ, 0 < ε₀ ∧ ∀ pi ε : ℚ, 0 < ε → ε ≤ ε₀ → Within pi Real.pi ε →
    (∃ r : ℚ, Gives (tan pi x ε) (some r) ∧ |(r : ℝ) - Real.tan x| ≤ δ) ∧
    (∃ r : ℚ, Gives (sec pi x ε) (some r) ∧ |(r : ℝ) - 1 / Real.cos x| ≤ δ) ∧
    (x ≠ 0 → (∃ r : ℚ, Gives (cot pi x ε) (some r) ∧ |(r : ℝ) - Real.cos x / Real.sin x| ≤ δ) ∧
      ∃ r : ℚ, Gives (csc x ε) (some r) ∧ |(r : ℝ) - 1 / Real.sin x| ≤ δ) := by
  have hC : 0 < |Real.cos x| := abs_pos.mpr (cos_rat_ne x)
  have hC2 : 0 < Real.cos x ^ 2 := by have := cos_rat_ne x; positivity
  -- a bound for the sine that is positive for every argument
  obtain ⟨S, hS, hS2⟩ : ∃ S : ℝ, 0 < S ∧ (x ≠ 0 → S ≤ |Real.sin x| ∧ S ≤ Real.sin x ^ 2) := by
    by_cases hx : x = 0
    · exact ⟨1, one_pos, fun h => absurd hx h⟩
    · have h := sin_rat_ne hx
      have h1 : 0 < |Real.sin x| := abs_pos.mpr h
      have h2 : 0 < Real.sin x ^ 2 := by positivity
      exact ⟨min |Real.sin x| (Real.sin x ^ 2), lt_min h1 h2, fun _ => ⟨min_le_left _ _, min_le_right _ _⟩⟩
  have hm : 0 < min (min 1 (|Real.cos x| / 2)) (min (min (δ * Real.cos x ^ 2 / 3) S) (δ * S / 3)) := by positivity
  obtain ⟨ε₀, h0, hlt⟩ := exists_rat_btwn hm
  have h0' : 0 < ε₀ := by exact_mod_cast h0
  refine ⟨ε₀, h0', ?_⟩
  intro pi ε hε hle hpi
  have hle' : (ε : ℝ) ≤ ε₀ := by exact_mod_cast hle
  have hall := le_of_lt (lt_of_le_of_lt hle' hlt)
  simp only [le_min_iff] at hall
  obtain ⟨⟨b1, b2⟩, ⟨b3, b4⟩, b5⟩ := hall
  have h1 : ε ≤ 1 := by exact_mod_cast b1
  have hεr : (0 : ℝ) < ε := by exact_mod_cast hε
  have hcos : 2 * (ε : ℝ) ≤ |Real.cos x| := by linarith
  refine ⟨?_, ?_, fun hx => ⟨?_, ?_⟩⟩
  · obtain ⟨r, g, h⟩ := tan_partial hε h1 hpi hcos
    refine ⟨r, g, h.trans ?_⟩
    rw [div_le_iff₀ hC2]; linarith
  · obtain ⟨r, g, h⟩ := sec_partial hε h1 hpi hcos
    refine ⟨r, g, h.trans ?_⟩
    rw [div_le_iff₀ hC2]; linarith
  · obtain ⟨s1, s2⟩ := hS2 hx
    obtain ⟨r, g, h⟩ := cot_partial hε h1 hpi (b4.trans s1)
    refine ⟨r, g, h.trans ?_⟩
    rw [div_le_iff₀ (lt_of_lt_of_le hS s2)]
    have := mul_le_mul_of_nonneg_left s2 hδ.le
    linarith
  · obtain ⟨s1, s2⟩ := hS2 hx
    obtain ⟨r, g, h⟩ := csc_partial hε h1 (b4.trans s1)
    refine ⟨r, g, h.trans ?_⟩
    rw [div_le_iff₀ (lt_of_lt_of_le hS s2)]
    have := mul_le_mul_of_nonneg_left s2 hδ.le
    linarith

/-- C208 is false of the program: whatever the precision, tangent and secant of half of the approximation of π are
no numbers, though the cosine of that fraction is not zero. -/
theorem poles_refuted {pi ε : ℚ} (hε : 0 < ε) :
    Real.cos ((pi / 2 : ℚ) : ℝ) ≠ 0 ∧ Gives (tan pi (pi / 2) ε) none ∧ Gives (sec pi (pi / 2) ε) none := by
  have gc : Gives (cos pi (pi / 2) ε) 0 := by
    have : cos pi (pi / 2) ε = sin 0 ε := by funext n; rw [cos, sub_self]
    rw [this]; exact sin_zero_gives hε.le
  refine ⟨cos_rat_ne _, ?_, ?_⟩
  · obtain ⟨s, gs⟩ := sin_ends (pi / 2) hε
    have := gives_two gs gc quot
    rwa [quot, if_pos rfl] at this
  · have := gives_map gc (quot 1)
    rwa [quot, if_pos rfl] at this

/-- C208: at zero, cotangent and cosecant are no numbers, as they should be. -/
theorem pole_at_zero (pi : ℚ) {ε : ℚ} (hε : 0 < ε) : Gives (cot pi 0 ε) none ∧ Gives (csc 0 ε) none := by
  have gs := sin_zero_gives hε.le
  constructor
  · obtain ⟨c, gc⟩ := sin_ends (pi / 2 - 0) hε
    have := gives_two (f := cos pi 0 ε) gc gs quot
    rwa [quot, if_pos rfl] at this
  · have := gives_map gs (quot 1)
    rwa [quot, if_pos rfl] at this

end ELC.Trig
