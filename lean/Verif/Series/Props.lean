import Verif.Series.Exp

open Filter Finset Topology

/-!
The functions of `math.hpp` on big fractions, against the real functions: C112 (square root), C113 (sine and cosine), C114
(exponential and logarithm), C115 (inverse functions), C116 (π), C117 (signs and rounding at compile time).
-/
namespace ELC.Series

/-! ### C112: square root -/

/-- The root of a number that is not negative, to any positive precision and from any positive guess: the call ends, and the
result is at most `ε` from the root, and never below it. -/
theorem sqrt_within {guess v ε : ℚ} (hg : 0 < guess) (hv : 0 ≤ v) (hε : 0 < ε) :
    ∃ r, Gives (sqrt guess v ε) r ∧ √(v : ℝ) ≤ r ∧ (r : ℝ) ≤ √(v : ℝ) + ε := by
  have hlt : ε < ε * 2 := by linarith
  obtain ⟨n, r, s, h1, h2, h3, h4, h5⟩ := sqrt_loop hv hε guess (ε * 2) hg (fun h => absurd hlt (not_lt.mpr h))
  refine ⟨r, ?_, h5 hlt, ?_⟩
  · exact gives_map (fun x : ℚ × ℚ => x.1) (gives_of_mono (f := fun n => sqrtToNewEps v ε n guess (ε * 2))
      (fun n r h => sqrtToNewEps_mono _ _ n _ _ r h) n h1)
  · have : (s : ℝ) ≤ ε := by exact_mod_cast h3
    have := (abs_le.mp h4).2
    linarith

example : ∃ r, Gives (sqrt 1 2 (1 / 1000)) r ∧ √((2 : ℚ) : ℝ) ≤ r ∧ (r : ℝ) ≤ √((2 : ℚ) : ℝ) + ((1 / 1000 : ℚ) : ℝ) :=
  sqrt_within (by norm_num) (by norm_num) (by norm_num)

/-- With the precision 0 the guess is given back unimproved, also for a square number: the root of 4 may be 1.  So "at most
`ε` from the root" is false for `ε = 0`. -/
theorem sqrt_exact_refuted : ¬ ∀ guess v : ℚ, 0 < guess → 0 ≤ v → ∀ r, Gives (sqrt guess v 0) r → Within r √(v : ℝ) 0 := by
  intro h
  have := h 1 4 one_pos (by norm_num) 1 ⟨1, fun m hm => by
    obtain ⟨k, rfl⟩ : ∃ k, m = k + 1 := ⟨m - 1, by omega⟩
    simp [sqrt, sqrtToNewEps]⟩
  unfold Within at this
  have e : √((4 : ℚ) : ℝ) = 2 := by
    rw [show ((4 : ℚ) : ℝ) = 2 ^ 2 by norm_num, Real.sqrt_sq (by norm_num)]
  rw [e] at this
  norm_num at this

/-! ### C113: sine and cosine -/

/-- "The sine of every number is given to every positive precision" is false: with `ε = 4` the sine of 4 is given as 4. -/
theorem sin_within_refuted : ¬ ∀ x ε : ℚ, 0 < ε → ∃ r, Gives (sin x ε) r ∧ Within r (Real.sin x) ε := by
  intro h
  obtain ⟨r, h1, h2⟩ := h 4 4 (by norm_num)
  have h3 : Gives (sin 4 4) 4 := ⟨1, fun m hm => by
    obtain ⟨k, rfl⟩ : ∃ k, m = k + 1 := ⟨m - 1, by omega⟩
    unfold sin
    rw [sinLoop, if_neg (by norm_num)]⟩
  obtain rfl := gives_unique h1 h3
  unfold Within at h2
  have h4 : Real.sin ((4 : ℚ) : ℝ) < 0 := by
    have h5 : Real.sin ((4 : ℚ) : ℝ) = -Real.sin (4 - Real.pi) := by
      rw [Real.sin_sub_pi, neg_neg]; norm_num
    rw [h5]
    have := Real.sin_pos_of_pos_of_lt_pi (x := 4 - Real.pi) (by linarith [Real.pi_lt_four]) (by linarith [Real.pi_gt_three])
    linarith
  have h6 := (abs_le.mp h2).2
  push_cast at h6 h4
  linarith

/-- For precisions up to 1 the call ends and the result is at most half of `ε` from the sine, for every argument. -/
theorem sin_within_partial (x : ℚ) {ε : ℚ} (hε : 0 < ε) (h1 : ε ≤ 1) :
    ∃ r, Gives (sin x ε) r ∧ Within r (Real.sin x) (ε / 2) := by
  obtain ⟨N, h2, h3, _⟩ := sin_gives x hε
  refine ⟨_, h2, ?_⟩
  have := sinSum_half x ε N h3 h1
  unfold Within
  push_cast
  exact this

/-- For any precision, the call ends; the result is right for an argument with `x² ≤ 6` or beyond the precision. -/
theorem sin_coarse_partial (x : ℚ) {ε : ℚ} (hε : 0 < ε) (h : x ^ 2 ≤ 6 ∨ ε < |x|) :
    ∃ r, Gives (sin x ε) r ∧ Within r (Real.sin x) ε := by
  obtain ⟨N, h2, h3, h4⟩ := sin_gives x hε
  exact ⟨_, h2, sinSum_within x ε N h3 h4 h⟩

/-- For any precision and argument, the call ends. -/
theorem sin_ends (x : ℚ) {ε : ℚ} (hε : 0 < ε) : ∃ r, Gives (sin x ε) r := by
  obtain ⟨N, h, _⟩ := sin_gives x hε
  exact ⟨_, h⟩

example : ∃ r, Gives (sin 100 (1 / 1000)) r ∧ Within r (Real.sin ((100 : ℚ) : ℝ)) (1 / 1000 / 2) :=
  sin_within_partial 100 (by norm_num) (by norm_num)

/-- The cosine, with π given to the same precision: for precisions up to 1 the result is at most `ε` from it, for every
argument. -/
theorem cos_within_partial (pi x : ℚ) {ε : ℚ} (hε : 0 < ε) (h1 : ε ≤ 1) (hpi : Within pi Real.pi ε) :
    ∃ r, Gives (cos pi x ε) r ∧ Within r (Real.cos x) ε := by
  obtain ⟨r, h2, h3⟩ := sin_within_partial (pi / 2 - x) hε h1
  refine ⟨r, h2, ?_⟩
  unfold Within at *
  have e : |Real.sin ((pi / 2 - x : ℚ) : ℝ) - Real.cos x| ≤ ε / 2 := by
    rw [← Real.sin_pi_div_two_sub]
    have hl := Real.abs_sin_sub_sin_le ((pi / 2 - x : ℚ) : ℝ) (Real.pi / 2 - x)
    refine hl.trans ?_
    push_cast
    have : (pi : ℝ) / 2 - x - (Real.pi / 2 - x) = (pi - Real.pi) / 2 := by ring
    rw [this, abs_div, abs_of_pos (by norm_num : (0 : ℝ) < 2)]
    linarith
  have := abs_sub_le (r : ℝ) (Real.sin ((pi / 2 - x : ℚ) : ℝ)) (Real.cos x)
  push_cast at *
  linarith

/-! ### C114: exponential and logarithm -/

/-- "The exponential and the logarithm are computed" is false: they do not end. -/
theorem exp_ends_refuted : ¬ ∀ v : ℚ, ∃ r, Gives (exp v) r := by
  intro h
  obtain ⟨r, n, hn⟩ := h 1
  have := hn n le_rfl
  rw [exp_never one_ne_zero] at this
  cases this

/-- `exp` of a fraction ends for 0 only, with the result 1: the loop waits for two sums that are equal, and the terms of the
series are never 0. -/
theorem exp_characterised (v : ℚ) : (v = 0 → Gives (exp v) 1) ∧ (v ≠ 0 → NeverEnds (exp v)) := by
  constructor
  · rintro rfl
    exact ⟨1, fun m hm => by
      obtain ⟨k, rfl⟩ : ∃ k, m = k + 1 := ⟨m - 1, by omega⟩
      exact exp_zero k⟩
  · exact fun h n => exp_never h n

theorem log_ends_refuted : ¬ ∀ a : ℚ, 0 < a → ∃ r, Gives (log a) r := by
  intro h
  obtain ⟨r, n, hn⟩ := h 2 (by norm_num)
  have := hn n le_rfl
  rw [log_never (by norm_num) (by norm_num)] at this
  cases this

/-- `log` of a positive fraction ends for 1 only, with the result 0. -/
theorem log_characterised (a : ℚ) (ha : 0 < a) : (a = 1 → Gives (log a) 0) ∧ (a ≠ 1 → NeverEnds (log a)) := by
  constructor
  · rintro rfl
    exact ⟨1, fun m hm => by
      obtain ⟨k, rfl⟩ : ∃ k, m = k + 1 := ⟨m - 1, by omega⟩
      exact log_one k⟩
  · exact fun h n => log_never (by linarith) h n

/-! ### C115: inverse trigonometric functions -/

/-- What `arctan` gives for numbers from -1 to 1: not the arc tangent but `x - x² arctan x` — the divisors of the series are
1, 3, 5, …, one place late. -/
theorem arctan_unit_characterised (pi : ℚ) {x ε : ℚ} (h1 : |x| ≤ 1) (hε : 0 < ε) :
    ∃ r, Gives (arctan pi x ε) r ∧ Within r ((x : ℝ) - x ^ 2 * Real.arctan x) ε := by
  by_cases h0 : x < 0
  · obtain ⟨r, ⟨n, hn⟩, hr⟩ := arctanSeries_gives (x := |x|) (abs_nonneg x) h1 hε
    refine ⟨-|r|, ⟨n, fun m hm => ?_⟩, ?_⟩
    · unfold arctan arctanU
      rw [if_pos h0, if_neg (not_lt.mpr h1), hn m hm]
      rfl
    · have h1' : |(x : ℝ)| ≤ 1 := by exact_mod_cast h1
      have h0' : (x : ℝ) < 0 := by exact_mod_cast h0
      have hg := gap_nonneg (abs_nonneg (x : ℝ)) h1'
      have hle := abs_abs_sub_abs_le (r : ℝ) (|(x : ℝ)| - |(x : ℝ)| ^ 2 * Real.arctan |(x : ℝ)|)
      push_cast at hr
      have h := hle.trans hr
      rw [abs_of_nonneg hg, abs_of_neg h0', Real.arctan_neg] at h
      unfold Within
      push_cast
      rw [← abs_neg]
      refine le_trans (le_of_eq ?_) h
      congr 1
      ring
  · rw [abs_of_nonneg (not_lt.mp h0)] at h1
    exact arctan_gives_unit pi (not_lt.mp h0) h1 hε

/-- What it gives for numbers above 1. -/
theorem arctan_above_characterised (pi : ℚ) {x ε : ℚ} (h1 : 1 < x) (hε : 0 < ε) :
    ∃ r, Gives (arctan pi x ε) r ∧
      Within r ((pi : ℝ) / 2 - ((x : ℝ)⁻¹ - ((x : ℝ)⁻¹) ^ 2 * Real.arctan (x : ℝ)⁻¹)) ε := by
  have h0 : 0 < x := by linarith
  obtain ⟨r, h2, h3⟩ := arctanSeries_gives (x := x⁻¹) (by positivity) (inv_le_one_of_one_le₀ h1.le) hε
  refine ⟨pi / 2 - r, ?_, ?_⟩
  · obtain ⟨n, hn⟩ := gives_map (fun r => pi / 2 - r) h2
    refine ⟨n, fun m hm => ?_⟩
    unfold arctan
    rw [if_neg (by linarith), if_pos h1]
    exact hn m hm
  · unfold Within
    push_cast at h3 ⊢
    rw [abs_sub_comm] at h3
    refine le_trans (le_of_eq ?_) h3
    congr 1
    ring

/-- What it gives for numbers below -1. -/
theorem arctan_below_characterised {pi x ε : ℚ} (hpi : 2 ≤ pi) (h1 : x < -1) (hε : 0 < ε) :
    ∃ r, Gives (arctan pi x ε) r ∧
      Within r (-(pi : ℝ) / 2 - ((x : ℝ)⁻¹ - ((x : ℝ)⁻¹) ^ 2 * Real.arctan (x : ℝ)⁻¹)) ε := by
  have h0 : x < 0 := by linarith
  have ha : 1 < |x| := by rw [abs_of_neg h0]; linarith
  obtain ⟨r, ⟨n, hn⟩, h3⟩ := arctanSeries_gives (x := |x|⁻¹) (by positivity) (inv_le_one_of_one_le₀ ha.le) hε
  refine ⟨-|pi / 2 - (|r|)|, ⟨n, fun m hm => ?_⟩, ?_⟩
  · unfold arctan arctanU
    rw [if_pos h0, if_pos ha, hn m hm]
    rfl
  · have ha' : 1 < |(x : ℝ)| := by exact_mod_cast ha
    have h0' : (x : ℝ) < 0 := by exact_mod_cast h0
    have hpi' : (2 : ℝ) ≤ pi := by exact_mod_cast hpi
    push_cast at h3
    have hy0 : 0 ≤ |(x : ℝ)|⁻¹ := by positivity
    have hy1 : |(x : ℝ)|⁻¹ ≤ 1 := inv_le_one_of_one_le₀ ha'.le
    have hg := gap_nonneg hy0 hy1
    have hg1 : |(x : ℝ)|⁻¹ - |(x : ℝ)|⁻¹ ^ 2 * Real.arctan |(x : ℝ)|⁻¹ ≤ 1 := by
      have : 0 ≤ |(x : ℝ)|⁻¹ ^ 2 * Real.arctan |(x : ℝ)|⁻¹ := mul_nonneg (sq_nonneg _) (Real.arctan_nonneg.mpr hy0)
      linarith
    have hle := abs_abs_sub_abs_le (r : ℝ) (|(x : ℝ)|⁻¹ - |(x : ℝ)|⁻¹ ^ 2 * Real.arctan |(x : ℝ)|⁻¹)
    have h := hle.trans h3
    rw [abs_of_nonneg hg] at h
    have hle2 := abs_abs_sub_abs_le ((pi : ℝ) / 2 - (|(r : ℝ)|)) ((pi : ℝ) / 2 - (|(x : ℝ)|⁻¹ - |(x : ℝ)|⁻¹ ^ 2 * Real.arctan |(x : ℝ)|⁻¹))
    rw [abs_of_nonneg (show 0 ≤ (pi : ℝ) / 2 - (|(x : ℝ)|⁻¹ - |(x : ℝ)|⁻¹ ^ 2 * Real.arctan |(x : ℝ)|⁻¹) by linarith),
      show (pi : ℝ) / 2 - (|(r : ℝ)|) - ((pi : ℝ) / 2 - (|(x : ℝ)|⁻¹ - |(x : ℝ)|⁻¹ ^ 2 * Real.arctan |(x : ℝ)|⁻¹)) =
        -((|(r : ℝ)|) - (|(x : ℝ)|⁻¹ - |(x : ℝ)|⁻¹ ^ 2 * Real.arctan |(x : ℝ)|⁻¹)) by ring, abs_neg] at hle2
    have h4 := hle2.trans h
    rw [abs_of_neg h0', inv_neg, Real.arctan_neg] at h4
    unfold Within
    push_cast
    rw [← abs_neg]
    refine le_trans (le_of_eq ?_) h4
    congr 1
    ring

/-- The arc tangent of no number above 0 and up to 1 is right, once the precision asked for is fine enough. -/
theorem arctan_wrong_everywhere (pi : ℚ) {x : ℚ} (h0 : 0 < x) (h1 : x ≤ 1) :
    ∃ δ : ℚ, 0 < δ ∧ ∀ ε, 0 < ε → ε < δ → ∀ r, Gives (arctan pi x ε) r → ¬ Within r (Real.arctan x) ε := by
  have h0' : (0 : ℝ) < x := by exact_mod_cast h0
  have hg := arctan_gap h0'
  obtain ⟨δ, hδ0, hδ⟩ := exists_rat_btwn (show (0 : ℝ) < ((1 + (x : ℝ) ^ 2) * Real.arctan x - x) / 2 by linarith)
  refine ⟨δ, by exact_mod_cast hδ0, fun ε hε hlt r hr hw => ?_⟩
  obtain ⟨r', h2, h3⟩ := arctan_gives_unit pi h0.le h1 hε
  obtain rfl := gives_unique hr h2
  unfold Within at hw
  have hlt' : (ε : ℝ) < δ := by exact_mod_cast hlt
  have a := abs_le.mp hw
  have b := abs_le.mp h3
  linarith [a.1, b.2]

theorem arctan_refuted : ¬ ∀ pi x ε : ℚ, 0 < ε → Within pi Real.pi ε → ∃ r, Gives (arctan pi x ε) r ∧
    Within r (Real.arctan x) ε := by
  intro h
  obtain ⟨δ, hδ, hw⟩ := arctan_wrong_everywhere 3 (x := 1) one_pos le_rfl
  obtain ⟨q, hq1, hq2⟩ := exists_rat_btwn (show Real.pi - ((min δ 1 / 2 : ℚ) : ℝ) < Real.pi by
    have : 0 < min δ 1 / 2 := by positivity
    have : (0 : ℝ) < ((min δ 1 / 2 : ℚ) : ℝ) := by exact_mod_cast this
    linarith)
  have hpos : 0 < min δ 1 / 2 := by positivity
  obtain ⟨r, h1, h2⟩ := h q 1 (min δ 1 / 2) hpos (by
    unfold Within
    rw [abs_le]
    constructor <;> linarith)
  have hlt : min δ 1 / 2 < δ := by
    have := min_le_left δ 1
    linarith
  refine hw _ hpos hlt r ?_ h2
  have e : ∀ pi' : ℚ, arctan pi' 1 (min δ 1 / 2) = arctanSeries 1 (min δ 1 / 2) := by
    intro pi'
    funext n
    unfold arctan
    rw [if_neg (by norm_num), if_neg (by norm_num)]
  rw [e] at h1 ⊢
  exact h1

/-- Only 0 has the right arc tangent. -/
theorem arctan_zero_partial (pi : ℚ) {ε : ℚ} (hε : 0 < ε) : Gives (arctan pi 0 ε) 0 := by
  refine ⟨1, fun m hm => ?_⟩
  obtain ⟨k, rfl⟩ : ∃ k, m = k + 1 := ⟨m - 1, by omega⟩
  unfold arctan arctanSeries
  rw [if_neg (by norm_num), if_neg (by norm_num), arctanLoop]
  simp only [mul_zero, zero_div, abs_zero]
  rw [if_neg (not_lt.mpr hε.le)]
  simp [reverseSignIf, reverseSign, copyAsNegative]

/-- The value that `arctan 1` gives lies near `1 - π/4`, far from `π/4`. -/
theorem arctan_one_value (pi : ℚ) {ε : ℚ} (hε : 0 < ε) :
    ∃ r, Gives (arctan pi 1 ε) r ∧ Within r (1 - Real.pi / 4) ε := by
  obtain ⟨r, h1, h2⟩ := arctan_gives_unit pi (x := 1) zero_le_one le_rfl hε
  refine ⟨r, h1, ?_⟩
  unfold Within
  rw [Rat.cast_one, Real.arctan_one] at h2
  simpa using h2

/-- The arc cosine of 1 is 0; what is given is near `3π/4 - 1`, with any good value of π. -/
theorem arccos_refuted : ∀ pi ε : ℚ, 0 < ε → ε ≤ 1 / 10 → Within pi Real.pi ε →
    ∃ r, Gives (arccos pi 1 ε) r ∧ Gives (arcsec pi 1 ε) r ∧ ¬ Within r (Real.arccos 1) ε := by
  intro pi ε hε h1 hpi
  obtain ⟨r, h2, h3⟩ := arctan_one_value pi hε
  have hg : Gives (arccos pi 1 ε) |pi / 2 - r| := gives_map (fun r => |pi / 2 - r|) h2
  refine ⟨|pi / 2 - r|, hg, ?_, ?_⟩
  · have : arcsec pi 1 ε = arccos pi 1 ε := by
      funext n; unfold arcsec; rw [inv_one]
    rw [this]; exact hg
  · intro hc
    unfold Within at *
    rw [Real.arccos_one, sub_zero] at hc
    push_cast at hc
    rw [abs_abs] at hc
    have h1' : (ε : ℝ) ≤ 1 / 10 := by
      have : ((ε : ℚ) : ℝ) ≤ ((1 / 10 : ℚ) : ℝ) := by exact_mod_cast h1
      refine this.trans (by norm_num)
    have a := abs_le.mp hc
    have b := abs_le.mp h3
    have c := abs_le.mp hpi
    have := Real.pi_gt_three
    linarith [a.2, b.2, c.1]

/-- The arc sine of 1 is `π/2`; what is given is less than a third. -/
theorem arcsin_refuted : ∀ guess pi ε : ℚ, 0 < guess → 0 < ε → ε ≤ 1 / 10 →
    ∃ r, Gives (arcsin guess pi 1 ε) r ∧ ¬ Within r (Real.arcsin 1) ε := by
  intro guess pi ε hg hε h1
  obtain ⟨s, ⟨n1, h2⟩, h3, h4⟩ := sqrt_within (v := 0) hg le_rfl hε
  rw [Rat.cast_zero, Real.sqrt_zero] at h3 h4
  have hs0 : 0 ≤ s := by exact_mod_cast h3
  have h4' : s ≤ ε := by
    have : (s : ℝ) ≤ ε := by linarith
    exact_mod_cast this
  obtain ⟨r, ⟨n2, h5⟩, h6⟩ := arctan_gives_unit pi hs0 (h4'.trans (h1.trans (by norm_num))) hε
  refine ⟨r, ⟨max n1 n2, fun m hm => ?_⟩, ?_⟩
  · unfold arcsin
    rw [show (1 : ℚ) - 1 * 1 = 0 by norm_num, h2 m (le_trans (le_max_left _ _) hm)]
    simp only [Option.bind_eq_bind, Option.bind_some]
    rw [one_div, inv_inv]
    exact h5 m (le_trans (le_max_right _ _) hm)
  · intro hc
    unfold Within at hc
    rw [Real.arcsin_one] at hc
    have h1' : (ε : ℝ) ≤ 1 / 10 := by
      have : ((ε : ℚ) : ℝ) ≤ ((1 / 10 : ℚ) : ℝ) := by exact_mod_cast h1
      refine this.trans (by norm_num)
    have h7 : (0 : ℝ) ≤ (s : ℝ) ^ 2 * Real.arctan s := mul_nonneg (sq_nonneg _) (Real.arctan_nonneg.mpr h3)
    have a := abs_le.mp hc
    have b := abs_le.mp h6
    have := Real.pi_gt_three
    have : (s : ℝ) ≤ ε := by linarith
    linarith [a.1, b.2]

/-- What `arccos` and `arccot` give for numbers from -1 to 1 (with a value of π of at least 2). -/
theorem arccos_characterised {pi x ε : ℚ} (hpi : 2 ≤ pi) (h1 : |x| ≤ 1) (hε : 0 < ε) :
    ∃ r, Gives (arccos pi x ε) r ∧ Within r ((pi : ℝ) / 2 - ((x : ℝ) - x ^ 2 * Real.arctan x)) ε := by
  obtain ⟨r, h2, h3⟩ := arctan_unit_characterised pi h1 hε
  refine ⟨|pi / 2 - r|, gives_map (fun r => |pi / 2 - r|) h2, ?_⟩
  have h1' : |(x : ℝ)| ≤ 1 := by exact_mod_cast h1
  have hpi' : (2 : ℝ) ≤ pi := by exact_mod_cast hpi
  have hg : (x : ℝ) - x ^ 2 * Real.arctan x ≤ 1 := by
    rcases le_or_gt 0 (x : ℝ) with h0 | h0
    · rw [abs_of_nonneg h0] at h1'
      have : 0 ≤ (x : ℝ) ^ 2 * Real.arctan x := mul_nonneg (sq_nonneg _) (Real.arctan_nonneg.mpr h0)
      linarith
    · have h := gap_nonneg (abs_nonneg (x : ℝ)) h1'
      rw [abs_of_neg h0, Real.arctan_neg] at h
      nlinarith
  have hle := abs_abs_sub_abs_le ((pi : ℝ) / 2 - r) ((pi : ℝ) / 2 - ((x : ℝ) - x ^ 2 * Real.arctan x))
  rw [abs_of_nonneg (show 0 ≤ (pi : ℝ) / 2 - ((x : ℝ) - x ^ 2 * Real.arctan x) by linarith),
    show (pi : ℝ) / 2 - r - ((pi : ℝ) / 2 - ((x : ℝ) - x ^ 2 * Real.arctan x)) = -((r : ℝ) - ((x : ℝ) - x ^ 2 * Real.arctan x)) by
      ring, abs_neg] at hle
  unfold Within at h3 ⊢
  push_cast
  exact hle.trans h3

/-- What `arcsec` gives for numbers from 1 on and up to -1. -/
theorem arcsec_characterised {pi x ε : ℚ} (hpi : 2 ≤ pi) (h1 : 1 ≤ |x|) (hε : 0 < ε) :
    ∃ r, Gives (arcsec pi x ε) r ∧ Within r ((pi : ℝ) / 2 - ((x : ℝ)⁻¹ - (x : ℝ)⁻¹ ^ 2 * Real.arctan (x : ℝ)⁻¹)) ε := by
  obtain ⟨r, h2, h3⟩ := arccos_characterised (x := x⁻¹) hpi (by rw [abs_inv]; exact inv_le_one_of_one_le₀ h1) hε
  refine ⟨r, h2, ?_⟩
  push_cast at h3
  exact h3

/-- What `arcsin` gives for numbers from 0 to 1: the arc tangent, computed as above, not of the quotient by the root but of
the product with it. -/
theorem arcsin_characterised {guess x ε : ℚ} (pi : ℚ) (hg : 0 < guess) (h0 : 0 ≤ x) (h1 : x ≤ 1) (hε : 0 < ε) (hε2 : ε ≤ 1 / 2) :
    ∃ s r : ℚ, √(1 - (x : ℝ) ^ 2) ≤ s ∧ (s : ℝ) ≤ √(1 - (x : ℝ) ^ 2) + ε ∧ Gives (arcsin guess pi x ε) r ∧
      Within r (((x * s : ℚ) : ℝ) - ((x * s : ℚ) : ℝ) ^ 2 * Real.arctan ((x * s : ℚ) : ℝ)) ε := by
  have hx2 : 0 ≤ 1 - x * x := by nlinarith
  obtain ⟨s, ⟨n1, h2⟩, h3, h4⟩ := sqrt_within hg hx2 hε
  have hc : ((1 - x * x : ℚ) : ℝ) = 1 - (x : ℝ) ^ 2 := by push_cast; ring
  rw [hc] at h3 h4
  have hs0 : (0 : ℝ) ≤ s := le_trans (Real.sqrt_nonneg _) h3
  have h0' : (0 : ℝ) ≤ x := by exact_mod_cast h0
  have h1' : (x : ℝ) ≤ 1 := by exact_mod_cast h1
  have hε2' : (ε : ℝ) ≤ 1 / 2 := by
    have : ((ε : ℚ) : ℝ) ≤ ((1 / 2 : ℚ) : ℝ) := by exact_mod_cast hε2
    refine this.trans (by norm_num)
  have hxs0 : 0 ≤ x * s := mul_nonneg h0 (by exact_mod_cast hs0)
  have hxs1 : x * s ≤ 1 := by
    have hsq : √(1 - (x : ℝ) ^ 2) ^ 2 = 1 - (x : ℝ) ^ 2 := Real.sq_sqrt (by nlinarith)
    have hab : (x : ℝ) * √(1 - (x : ℝ) ^ 2) ≤ 1 / 2 := by nlinarith [sq_nonneg ((x : ℝ) - √(1 - (x : ℝ) ^ 2))]
    have : ((x * s : ℚ) : ℝ) ≤ 1 := by
      push_cast
      have := mul_le_mul_of_nonneg_left h4 h0'
      nlinarith
    exact_mod_cast this
  obtain ⟨r, ⟨n2, h5⟩, h6⟩ := arctan_gives_unit pi hxs0 hxs1 hε
  refine ⟨s, r, h3, h4, ⟨max n1 n2, fun m hm => ?_⟩, h6⟩
  unfold arcsin
  rw [h2 m (le_trans (le_max_left _ _) hm)]
  simp only [Option.bind_eq_bind, Option.bind_some]
  rw [div_inv_eq_mul]
  exact h5 m (le_trans (le_max_right _ _) hm)

example : ∃ r, Gives (arccos 3 (1 / 2) (1 / 100)) r ∧
    Within r (((3 : ℚ) : ℝ) / 2 - (((1 / 2 : ℚ) : ℝ) - ((1 / 2 : ℚ) : ℝ) ^ 2 * Real.arctan ((1 / 2 : ℚ) : ℝ))) (1 / 100) :=
  arccos_characterised (by norm_num) (by norm_num [abs_of_pos]) (by norm_num)

/-! ### C116: π -/

/-- The number that the series defines. -/
theorem chudnovsky_exists : ∃ x, IsChudnovsky x := by
  obtain ⟨S, hS⟩ := chud_sum_exists
  refine ⟨√640320 / (12 * S), S, hS, ?_⟩
  rw [one_div, inv_div]

theorem chudnovsky_unique {x y : ℝ} (hx : IsChudnovsky x) (hy : IsChudnovsky y) : x = y := by
  obtain ⟨S, hS, h1⟩ := hx
  obtain ⟨T, hT, h2⟩ := hy
  obtain rfl := tendsto_nhds_unique hS hT
  rw [← h2, one_div, one_div] at h1
  exact inv_injective h1

/-- After any history of calls that return, `π(ε)` ends for every positive `ε`; the object then keeps at least this
precision; and for `ε < 1/30` the result is at most `ε` from the sum of the series of Chudnovsky. -/
theorem pi_within {p : Pi} (hp : Reach p) {ε : ℚ} (hε : 0 < ε) :
    ∃ q r, Gives (p.within ε) (q, r) ∧ Reach q ∧ q.ε ≤ ε ∧ (ε < 1 / 30 → ∀ x, IsChudnovsky x → Within r x ε) := by
  have hg := good_reach hp
  obtain ⟨q, r, n, hn⟩ := within_ends hg hε
  have h1 := hn n le_rfl
  obtain ⟨h2, rfl, h4⟩ := good_within hg h1
  refine ⟨q, _, ⟨n, hn⟩, .step n (.within ε) hp (by simp [Pi.act, h1]), h4, fun hlt x hx => ?_⟩
  have := good_value h2 (Or.inl (lt_of_le_of_lt h4 hlt)) hx
  have h4' : (q.ε : ℝ) ≤ ε := by exact_mod_cast h4
  have h0 : (0 : ℝ) < q.ε := by exact_mod_cast h2.ε_pos
  unfold Within
  linarith

/-- The result is π itself to the precision asked for, from `2/10^19` on.  (That the series gives exactly π is not proved
here; the two numbers agree in nineteen digits.) -/
theorem pi_is_pi_partial {p : Pi} (hp : Reach p) {ε : ℚ} (hε : 2 / 10 ^ 19 ≤ ε) (h30 : ε < 1 / 30) :
    ∃ q r, Gives (p.within ε) (q, r) ∧ Within r Real.pi ε := by
  have hpos : 0 < ε := lt_of_lt_of_le (by norm_num) hε
  have hg := good_reach hp
  obtain ⟨q, r, n, hn⟩ := within_ends hg hpos
  obtain ⟨h2, rfl, h4⟩ := good_within hg (hn n le_rfl)
  obtain ⟨x, hx⟩ := chudnovsky_exists
  refine ⟨q, _, ⟨n, hn⟩, ?_⟩
  have h5 := good_value h2 (Or.inl (lt_of_le_of_lt h4 h30)) hx
  have h6 := chud_pi hx
  have h4' : (q.ε : ℝ) ≤ ε := by exact_mod_cast h4
  have hε' : (2 / 10 ^ 19 : ℝ) ≤ ε := by
    have : ((2 / 10 ^ 19 : ℚ) : ℝ) ≤ (ε : ℝ) := by exact_mod_cast hε
    refine le_trans (by norm_num) this
  have := abs_sub_le (q.value : ℝ) x Real.pi
  unfold Within
  norm_num at hε' h6 ⊢
  linarith

/-- The same for every `ε` from `2/10^19` on, when the root was never improved on its own. -/
theorem pi_plain_history_partial {p : Pi} (hp : ReachPlain p) {ε : ℚ} (hε : 2 / 10 ^ 19 ≤ ε) :
    ∃ q r, Gives (p.within ε) (q, r) ∧ Within r Real.pi ε := by
  obtain ⟨hr, hroot⟩ := plain_reach hp
  by_cases h30 : ε < 1 / 30
  · exact pi_is_pi_partial hr hε h30
  have hge := not_lt.mp h30
  have hg := good_reach hr
  refine ⟨p, p.value, ⟨0, fun m _ => by
    unfold Pi.within; rw [if_neg (not_lt.mpr (hg.ε_le.trans hge))]⟩, ?_⟩
  have hge' : (1 / 30 : ℝ) ≤ ε := by
    have : ((1 / 30 : ℚ) : ℝ) ≤ (ε : ℝ) := by exact_mod_cast hge
    refine le_trans (by norm_num) this
  unfold Within
  by_cases hacc : p.accurate = 0
  · have h800 : p.root = 800 := hroot.resolve_left (fun h => h hacc)
    obtain ⟨m, h1, _⟩ := hg.series
    rw [h1.accurate] at hacc
    obtain rfl : m = 0 := by omega
    rw [value_first h1, h800]
    have a := Real.pi_gt_d4
    have b := Real.pi_lt_d4
    refine le_trans ?_ hge'
    rw [abs_le]
    push_cast
    constructor <;> norm_num at a b ⊢ <;> linarith
  · obtain ⟨x, hx⟩ := chudnovsky_exists
    have h5 := good_value hg (Or.inr hacc) hx
    have h6 := chud_pi hx
    have h4' : (p.ε : ℝ) ≤ 1 / 30 := by
      have : ((p.ε : ℚ) : ℝ) ≤ ((1 / 30 : ℚ) : ℝ) := by exact_mod_cast hg.ε_le
      refine this.trans (by norm_num)
    have := abs_sub_le (p.value : ℝ) x Real.pi
    norm_num at h6 ⊢
    linarith

/-- A fresh object, asked for a thousandth, and then for a tenth. -/
example : ∃ q r, Gives (({} : Pi).within (1 / 1000)) (q, r) ∧ Within r Real.pi (1 / 1000) :=
  pi_is_pi_partial .start (by norm_num) (by norm_num)
example : ∃ q r, Gives (({} : Pi).baseIteration.within (1 / 10)) (q, r) ∧ Within r Real.pi (1 / 10) :=
  pi_plain_history_partial (.step 0 .base .start (by intro h; cases h) rfl) (by norm_num)

/-- "After any history `π(ε)` is at most `ε` from π" is false: when the root is improved before the first turn of the series,
`π(1/30)` is farther than a thirtieth from π. -/
theorem pi_any_history_refuted : ¬ ∀ p ε, Reach p → 0 < ε → ∃ q r, Gives (p.within ε) (q, r) ∧ Within r Real.pi ε := by
  intro h
  have hreach : Reach ({} : Pi).sqrtIteration := .step 0 .sqrt .start rfl
  obtain ⟨q, r, h1, h2⟩ := h _ (1 / 30) hreach (by norm_num)
  have h3 : Gives (({} : Pi).sqrtIteration.within (1 / 30)) (({} : Pi).sqrtIteration, ({} : Pi).sqrtIteration.value) :=
    ⟨0, fun m _ => by
      unfold Pi.within
      exact if_neg (show ¬ (1 / 30 : ℚ) < 1 / 30 from lt_irrefl _)⟩
  obtain ⟨rfl, rfl⟩ := Prod.mk.inj (gives_unique h1 h3)
  have hv : ({} : Pi).sqrtIteration.value = 8002 / 2520 := by
    norm_num [Pi.value, Pi.sqrtIteration, sqrtIteration]
  rw [hv] at h2
  unfold Within at h2
  have a := (abs_le.mp h2).2
  have b := Real.pi_lt_d4
  norm_num at a b
  linarith

/-- `π()` without a precision: always within a sixtieth, and within half of the precision reached. -/
theorem pi_plain {p : Pi} (hp : Reach p) {x : ℝ} (hx : IsChudnovsky x) :
    |((p.plain.2 : ℚ) : ℝ) - x| ≤ (p.ε : ℝ) / 2 ∧ p.ε ≤ 1 / 30 := by
  have hg := good_reach hp
  refine ⟨?_, hg.ε_le⟩
  unfold Pi.plain
  dsimp only
  by_cases h : p.accurate = 0
  · rw [if_pos h]
    exact good_value (good_base hg) (Or.inr (Nat.succ_ne_zero _)) hx
  · rw [if_neg h]
    exact good_value hg (Or.inr h) hx

/-! ### C117: signs, and rounding at compile time -/

/-- The sign of a fraction is reversed. -/
theorem reverse_sign_fraction (x : ℚ) : reverseSign x = -x := reverseSign_eq x

/-- "The sign of an integer is reversed" is false for the negative ones. -/
theorem reverse_sign_refuted : ¬ ∀ x : ℤ, reverseSignInt x = -x := by
  intro h
  have := h (-5)
  revert this
  decide

/-- It becomes, or stays, negative. -/
theorem reverse_sign_characterised (x : ℤ) : reverseSignInt x = -|x| := by
  unfold reverseSignInt copyAsNegativeInt
  by_cases h : x < 0
  · simp [h, abs_of_neg h]
  · simp [h, abs_of_nonneg (not_lt.mp h)]

/-- `trunc` cuts the fraction towards 0, for numbers whose integer part fits. -/
theorem trunc_const {v : ℚ} (h1 : -(2 ^ 63 : ℚ) - 1 < v) (h2 : v < 2 ^ 63) :
    ∃ t : ℤ, truncConst v = some (t : ℚ) ∧ |(t : ℚ)| ≤ |v| ∧ |v - t| < 1 ∧ 0 ≤ v * t := by
  unfold truncConst
  rw [if_pos ⟨h1, h2⟩]
  by_cases h : v < 0
  · rw [if_pos h]
    have e : (-v).floor = -⌈v⌉ := (show (-v).floor = ⌊-v⌋ from rfl).trans Int.floor_neg
    refine ⟨⌈v⌉, by rw [e]; push_cast; rw [neg_neg], ?_⟩
    have a := Int.ceil_lt_add_one v
    have b := Int.le_ceil v
    have c : (⌈v⌉ : ℚ) ≤ 0 := by exact_mod_cast Int.ceil_le.mpr (by exact_mod_cast h.le)
    refine ⟨by rw [abs_of_nonpos c, abs_of_neg h]; linarith, ?_, by nlinarith⟩
    rw [abs_lt]; constructor <;> linarith
  · rw [if_neg h]
    have e : v.floor = ⌊v⌋ := rfl
    refine ⟨v.floor, rfl, ?_⟩
    rw [e]
    have h := not_lt.mp h
    have a := Int.lt_floor_add_one v
    have b := Int.floor_le v
    have c : (0 : ℚ) ≤ (⌊v⌋ : ℚ) := by exact_mod_cast Int.floor_nonneg.mpr h
    refine ⟨by rw [abs_of_nonneg c, abs_of_nonneg h]; exact b, ?_, by nlinarith⟩
    rw [abs_lt]; constructor <;> linarith

/-- "`floor` at compile time is the greatest integer that is not above the number" is false: 3/2 gives 0, and -2 gives -3. -/
theorem floor_const_refuted :
    ¬ (∀ v, 0 ≤ v → v < 2 ^ 64 → floorConst (1 / 2 ^ 52) v = some (⌊v⌋ : ℚ)) ∧
    ¬ (∀ v, v < 0 → -(2 ^ 63) < v → floorConst (1 / 2 ^ 52) v = some (⌊v⌋ : ℚ)) := by
  constructor
  · intro h
    have := h (3 / 2) (by norm_num) (by norm_num)
    revert this
    have e1 : (3 / 2 : ℚ).floor = 1 := by decide +kernel
    have e2 : ⌊(3 / 2 : ℚ)⌋ = 1 := e1
    rw [e2]
    unfold floorConst toUintmax isClose
    rw [if_neg (by norm_num), if_pos (by norm_num), e1]
    norm_num
  · intro h
    have := h (-2) (by norm_num) (by norm_num)
    revert this
    have e1 : (-(-2) + 1 : ℚ).floor = 3 := by decide +kernel
    have e2 : ⌊(-2 : ℚ)⌋ = -2 := by
      have : (-2 : ℚ).floor = -2 := by decide +kernel
      exact this
    rw [e2]
    unfold floorConst toUintmax
    rw [if_pos (by norm_num), if_pos (by norm_num), e1]
    norm_num

/-- What it gives: one too few unless a positive number is within `ε` above an integer, or a negative one is no integer. -/
theorem floor_const_characterised {ε v : ℚ} (h1 : -(2 ^ 64) + 1 < v) (h2 : v < 2 ^ 64) :
    floorConst ε v = some (if (0 ≤ v ∧ v - ⌊v⌋ ≤ ε) ∨ (v < 0 ∧ v ≠ ⌊v⌋) then (⌊v⌋ : ℚ) else (⌊v⌋ : ℚ) - 1) := by
  have e : ∀ x : ℚ, x.floor = ⌊x⌋ := fun _ => rfl
  unfold floorConst toUintmax isClose
  by_cases h : v < 0
  · rw [if_pos h, if_pos (by linarith), e, Int.floor_add_one, Int.floor_neg]
    simp only [Option.bind_eq_bind, Option.bind_some, h, true_and, not_le.mpr h, false_and, false_or]
    by_cases hi : v = ⌊v⌋
    · rw [if_neg (fun hc => hc hi)]
      have : ⌈v⌉ = ⌊v⌋ := by
        conv_lhs => rw [hi]
        exact Int.ceil_intCast _
      rw [this]
      show some _ = _
      push_cast; congr 1; ring
    · rw [if_pos hi]
      have h3 : ⌈v⌉ = ⌊v⌋ + 1 := by
        rw [Int.ceil_eq_iff]
        have a := Int.lt_floor_add_one v
        have b := lt_of_le_of_ne (Int.floor_le v) (fun hc => hi hc.symm)
        push_cast
        constructor <;> linarith
      rw [h3]
      show some _ = _
      push_cast; congr 1; ring
  · have h0 := not_lt.mp h
    rw [if_neg h, if_pos h2, e]
    simp only [Option.bind_eq_bind, Option.bind_some, h, false_and, h0, true_and, or_false]
    have a := Int.floor_le v
    rw [abs_of_nonneg (by linarith)]
    by_cases hc : v - ⌊v⌋ ≤ ε
    · rw [if_pos hc, decide_eq_true hc]; rfl
    · rw [if_neg hc, decide_eq_false hc]; rfl

/-- "`ceil` at compile time is the least integer that is not below the number" is false: a number barely above 1 gives 1. -/
theorem ceil_const_refuted : ¬ ∀ v, 0 ≤ v → v < 2 ^ 64 → ceilConst (1 / 2 ^ 52) v = some (⌈v⌉ : ℚ) := by
  intro h
  have := h (1 + 1 / 2 ^ 52) (by norm_num) (by norm_num)
  revert this
  have e1 : (1 + 1 / 2 ^ 52 : ℚ).floor = 1 := by decide +kernel
  have e2 : ⌈(1 + 1 / 2 ^ 52 : ℚ)⌉ = 2 := by
    rw [Int.ceil_eq_iff]; norm_num
  rw [e2]
  unfold ceilConst toUintmax isClose
  rw [if_neg (by norm_num), if_pos (by norm_num), e1]
  norm_num

/-- What it gives: the right integer except for positive numbers at most `ε` above an integer, which are rounded down. -/
theorem ceil_const_characterised {ε v : ℚ} (hε : 0 ≤ ε) (h1 : -(2 ^ 64) < v) (h2 : v < 2 ^ 64) :
    ceilConst ε v = some (if 0 ≤ v ∧ v - ⌊v⌋ ≤ ε then (⌊v⌋ : ℚ) else (⌈v⌉ : ℚ)) := by
  have e : ∀ x : ℚ, x.floor = ⌊x⌋ := fun _ => rfl
  unfold ceilConst toUintmax isClose
  by_cases h : v < 0
  · rw [if_pos h, if_pos (by linarith), e, Int.floor_neg]
    simp only [Option.bind_eq_bind, Option.bind_some, not_le.mpr h, false_and]
    show some _ = some _
    push_cast; simp
  · have h0 := not_lt.mp h
    rw [if_neg h, if_pos h2, e]
    simp only [Option.bind_eq_bind, Option.bind_some, h0, true_and]
    have a := Int.floor_le v
    rw [abs_of_nonneg (by linarith)]
    by_cases hc : v - ⌊v⌋ ≤ ε
    · rw [if_pos hc, decide_eq_true hc]; rfl
    · have h3 : ⌈v⌉ = ⌊v⌋ + 1 := by
        rw [Int.ceil_eq_iff]
        have a := Int.lt_floor_add_one v
        push_cast
        constructor <;> linarith
      rw [if_neg hc, decide_eq_false hc, h3]; push_cast; rfl

example : floorConst (1 / 2 ^ 52) (7 / 2) = some 2 := by
  have := floor_const_characterised (ε := 1 / 2 ^ 52) (v := 7 / 2) (by norm_num) (by norm_num)
  have e : ⌊(7 / 2 : ℚ)⌋ = 3 := by
    have : (7 / 2 : ℚ).floor = 3 := by decide +kernel
    exact this
  rw [this, e]
  norm_num

end ELC.Series
