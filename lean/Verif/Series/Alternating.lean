import Verif.Series.Sqrt
import Mathlib.Analysis.SpecificLimits.Normed
import Mathlib.Analysis.SpecialFunctions.Trigonometric.Series
import Mathlib.Analysis.SpecialFunctions.Complex.Arctan
import Mathlib.Analysis.Real.Pi.Leibniz
import Mathlib.Topology.Algebra.Order.Floor
import Mathlib.Analysis.SpecificLimits.Basic
import Mathlib.Tactic.Ring

open Filter Finset Topology

namespace ELC.Series

/-- What is left of an alternating series whose terms decrease from the `n`th on. -/
theorem alt_tail {f : ℕ → ℝ} {L : ℝ} (h : Tendsto (fun n => ∑ i ∈ range n, (-1 : ℝ) ^ i * f i) atTop (𝓝 L)) (n : ℕ)
    (ha : ∀ k, n ≤ k → f (k + 1) ≤ f k) :
    0 ≤ (-1) ^ n * (L - ∑ i ∈ range n, (-1 : ℝ) ^ i * f i) ∧ (-1) ^ n * (L - ∑ i ∈ range n, (-1 : ℝ) ^ i * f i) ≤ f n := by
  have hanti : Antitone fun k => f (n + k) := antitone_nat_of_succ_le fun k => by
    have := ha (n + k) (by omega)
    rwa [Nat.add_assoc] at this
  have e : ∀ m, ∑ i ∈ range m, (-1 : ℝ) ^ i * f (n + i) =
      (-1) ^ n * (∑ i ∈ range (n + m), (-1 : ℝ) ^ i * f i - ∑ i ∈ range n, (-1 : ℝ) ^ i * f i) := by
    intro m
    rw [sum_range_add, add_sub_cancel_left, mul_sum]
    refine sum_congr rfl fun i _ => ?_
    rw [pow_add, ← mul_assoc, ← mul_assoc, ← pow_add, ← two_mul, pow_mul]
    norm_num
  have ht : Tendsto (fun m => ∑ i ∈ range m, (-1 : ℝ) ^ i * f (n + i)) atTop
      (𝓝 ((-1) ^ n * (L - ∑ i ∈ range n, (-1 : ℝ) ^ i * f i))) := by
    simp_rw [e]
    refine Tendsto.const_mul _ (Tendsto.sub_const ?_ _)
    have := h.comp (tendsto_add_atTop_nat n)
    refine this.congr fun m => ?_
    simp only [Function.comp, Nat.add_comm]
  constructor
  · simpa using hanti.alternating_series_le_tendsto ht 0
  · simpa using hanti.tendsto_le_alternating_series ht 0

theorem alt_tail_abs {f : ℕ → ℝ} {L : ℝ} (h : Tendsto (fun n => ∑ i ∈ range n, (-1 : ℝ) ^ i * f i) atTop (𝓝 L)) (n : ℕ)
    (ha : ∀ k, n ≤ k → f (k + 1) ≤ f k) : |∑ i ∈ range n, (-1 : ℝ) ^ i * f i - L| ≤ f n := by
  obtain ⟨h1, h2⟩ := alt_tail h n ha
  have : |∑ i ∈ range n, (-1 : ℝ) ^ i * f i - L| = |(-1) ^ n * (L - ∑ i ∈ range n, (-1 : ℝ) ^ i * f i)| := by
    rw [abs_mul, abs_pow, abs_neg, abs_one, one_pow, one_mul, abs_sub_comm]
  rw [this, abs_of_nonneg h1]
  exact h2

/-! ### Signs -/

theorem reverseSign_eq (x : ℚ) : reverseSign x = -x := by
  unfold reverseSign copyAsNegative isNegative
  by_cases h : x < 0
  · simp [h, abs_of_neg h]
  · simp [h, abs_of_nonneg (not_lt.mp h)]

/-- Whether the `k`th term is subtracted. -/
def odd? (k : ℕ) : Bool := decide (k % 2 = 1)

theorem odd?_succ (k : ℕ) : odd? (k + 1) = !odd? k := by
  unfold odd?
  rcases Nat.mod_two_eq_zero_or_one k with h | h
  · have : (k + 1) % 2 = 1 := by omega
    simp [h, this]
  · have : (k + 1) % 2 = 0 := by omega
    simp [h, this]

theorem reverseSignIf_eq (k : ℕ) (x : ℚ) : reverseSignIf (odd? k) x = (-1) ^ k * x := by
  unfold reverseSignIf odd?
  rcases Nat.mod_two_eq_zero_or_one k with h | h
  · rw [Even.neg_one_pow (Nat.even_iff.mpr h)]; simp [h]
  · rw [Odd.neg_one_pow (Nat.odd_iff.mpr h), reverseSign_eq]; simp [h]

/-! ### Sine -/

/-- The terms of the series. -/
def sinTerm (x : ℚ) (k : ℕ) : ℚ := x ^ (2 * k + 1) / (2 * k + 1).factorial

/-- Its partial sums. -/
def sinSum (x : ℚ) (k : ℕ) : ℚ := ∑ j ∈ range (k + 1), (-1) ^ j * sinTerm x j

theorem sinTerm_succ (x : ℚ) (k : ℕ) :
    sinTerm x k * (x * x / (((2 * k + 1) + 1) * ((2 * k + 1) + 2) : ℕ)) = sinTerm x (k + 1) := by
  unfold sinTerm
  have e : 2 * (k + 1) + 1 = 2 * k + 1 + 1 + 1 := by ring
  rw [e, Nat.factorial_succ (2 * k + 1 + 1), Nat.factorial_succ (2 * k + 1)]
  have h := Nat.cast_ne_zero (R := ℚ).mpr (Nat.factorial_ne_zero (2 * k + 1))
  push_cast
  field_simp
  ring

theorem sinLoop_mono (p ε : ℚ) : ∀ n i b r g s, sinLoop p ε n i b r g = some s → sinLoop p ε (n + 1) i b r g = some s := by
  intro n
  induction n with
  | zero => intro i b r g s h; cases h
  | succ n ih =>
    intro i b r g s h
    rw [sinLoop] at h ⊢
    by_cases hs : |b| > ε
    · rw [if_pos hs] at h ⊢
      exact ih _ _ _ _ _ h
    · rw [if_neg hs] at h ⊢
      exact h

theorem sinLoop_run (x ε : ℚ) (N : ℕ) (hN : |sinTerm x N| ≤ ε) (hlt : ∀ k < N, ε < |sinTerm x k|) :
    ∀ d k, k + d = N → sinLoop (x * x) ε (d + 1) (2 * k + 1) (sinTerm x k) (sinSum x k) (odd? k) = some (sinSum x N) := by
  intro d
  induction d with
  | zero =>
    intro k hk
    obtain rfl : k = N := by omega
    rw [sinLoop, if_neg (not_lt.mpr hN)]
  | succ d ih =>
    intro k hk
    rw [sinLoop, if_pos (hlt k (by omega))]
    have := ih (k + 1) (by omega)
    rw [← this]
    simp only
    rw [sinTerm_succ, ← odd?_succ, reverseSignIf_eq]
    congr 1
    unfold sinSum
    rw [sum_range_succ _ (k + 1)]

theorem sinTerm_tendsto (x : ℚ) : Tendsto (fun k => |((sinTerm x k : ℚ) : ℝ)|) atTop (𝓝 0) := by
  have h := (FloorSemiring.tendsto_pow_div_factorial_atTop |(x : ℝ)|).comp
    (tendsto_atTop_mono (fun k : ℕ => (by omega : k ≤ 2 * k + 1)) tendsto_id)
  refine h.congr fun k => ?_
  simp only [Function.comp, sinTerm]
  push_cast
  rw [abs_div, abs_pow, Nat.abs_cast]

theorem exists_first (x : ℚ) {ε : ℚ} (hε : 0 < ε) :
    ∃ N, |sinTerm x N| ≤ ε ∧ ∀ k < N, ε < |sinTerm x k| := by
  have hex : ∃ N, |sinTerm x N| ≤ ε := by
    have hε' : (0 : ℝ) < (ε : ℝ) := by exact_mod_cast hε
    have := ((sinTerm_tendsto x).eventually (gt_mem_nhds hε')).exists
    obtain ⟨N, hN⟩ := this
    exact ⟨N, by exact_mod_cast hN.le⟩
  classical
  exact ⟨Nat.find hex, Nat.find_spec hex, fun k hk => not_le.mp (Nat.find_min hex hk)⟩

theorem sin_tendsto (y : ℝ) : Tendsto (fun n => ∑ i ∈ range n, (-1 : ℝ) ^ i * (y ^ (2 * i + 1) / (2 * i + 1).factorial)) atTop
    (𝓝 (Real.sin y)) := by
  have := (Real.hasSum_sin y).tendsto_sum_nat
  refine this.congr fun n => sum_congr rfl fun i _ => ?_
  ring

/-- Partial sums, with the sign of the argument taken out. -/
theorem sinSum_error (x : ℚ) (n : ℕ)
    (h : ∀ k, n ≤ k → |(x : ℝ)| ^ (2 * (k + 1) + 1) / ((2 * (k + 1) + 1).factorial : ℝ) ≤
      |(x : ℝ)| ^ (2 * k + 1) / ((2 * k + 1).factorial : ℝ)) :
    |(∑ j ∈ range n, (-1 : ℝ) ^ j * ((x : ℝ) ^ (2 * j + 1) / (2 * j + 1).factorial)) - Real.sin x| ≤
      |(x : ℝ)| ^ (2 * n + 1) / (2 * n + 1).factorial := by
  rcases le_total 0 (x : ℝ) with h0 | h0
  · rw [abs_of_nonneg h0] at h ⊢
    exact alt_tail_abs (sin_tendsto x) n h
  · rw [abs_of_nonpos h0] at h ⊢
    have := alt_tail_abs (sin_tendsto (-(x : ℝ))) n h
    rw [Real.sin_neg] at this
    have e : (∑ i ∈ range n, (-1 : ℝ) ^ i * ((-(x : ℝ)) ^ (2 * i + 1) / (2 * i + 1).factorial)) =
        -(∑ j ∈ range n, (-1 : ℝ) ^ j * ((x : ℝ) ^ (2 * j + 1) / (2 * j + 1).factorial)) := by
      rw [← sum_neg_distrib]
      refine sum_congr rfl fun i _ => ?_
      rw [Odd.neg_pow ⟨i, rfl⟩]
      ring
    rw [e, ← neg_sub'] at this
    rwa [abs_neg] at this

theorem term_ratio (y : ℝ) (k : ℕ) : y ^ (2 * (k + 1) + 1) / ((2 * (k + 1) + 1).factorial : ℝ) =
    y ^ (2 * k + 1) / ((2 * k + 1).factorial : ℝ) * (y ^ 2 / ((2 * k + 2) * (2 * k + 3))) := by
  have e : 2 * (k + 1) + 1 = 2 * k + 1 + 1 + 1 := by ring
  rw [e, Nat.factorial_succ (2 * k + 1 + 1), Nat.factorial_succ (2 * k + 1)]
  have h := Nat.cast_ne_zero (R := ℝ).mpr (Nat.factorial_ne_zero (2 * k + 1))
  push_cast
  have h2 : (2 * (k : ℝ) + 2) ≠ 0 := by positivity
  have h3 : (2 * (k : ℝ) + 3) ≠ 0 := by positivity
  rw [show (2 * (k : ℝ) + 1 + 1 + 1) = 2 * k + 3 by ring, show (2 * (k : ℝ) + 1 + 1) = 2 * k + 2 by ring]
  field_simp
  ring

theorem term_dec {y : ℝ} (hy : 0 ≤ y) {k : ℕ} (h : y ^ 2 ≤ (2 * k + 2) * (2 * k + 3)) :
    y ^ (2 * (k + 1) + 1) / ((2 * (k + 1) + 1).factorial : ℝ) ≤ y ^ (2 * k + 1) / ((2 * k + 1).factorial : ℝ) := by
  rw [term_ratio]
  apply mul_le_of_le_one_right (by positivity)
  rw [div_le_one (by positivity)]
  exact h

theorem sinSum_cast (x : ℚ) (N : ℕ) : ((sinSum x N : ℚ) : ℝ) =
    ∑ j ∈ range (N + 1), (-1 : ℝ) ^ j * ((x : ℝ) ^ (2 * j + 1) / (2 * j + 1).factorial) := by
  unfold sinSum sinTerm
  push_cast
  rfl

/-- Where the loop stops the error is at most `ε`. -/
theorem sinSum_within (x ε : ℚ) (N : ℕ) (hN : |sinTerm x N| ≤ ε) (hlt : ∀ k < N, ε < |sinTerm x k|)
    (h : x ^ 2 ≤ 6 ∨ ε < |x|) : |((sinSum x N : ℚ) : ℝ) - Real.sin x| ≤ ε := by
  have hN' : |(x : ℝ)| ^ (2 * N + 1) / ((2 * N + 1).factorial : ℝ) ≤ ε := by
    have : |((sinTerm x N : ℚ) : ℝ)| ≤ ε := by exact_mod_cast hN
    unfold sinTerm at this
    push_cast at this
    rwa [abs_div, abs_pow, Nat.abs_cast] at this
  have key : |(x : ℝ)| ^ 2 ≤ (2 * N + 2) * (2 * N + 3) := by
    rcases Nat.eq_zero_or_pos N with h0 | h0
    · subst h0
      rcases h with h | h
      · have h' : (x : ℝ) ^ 2 ≤ 6 := by exact_mod_cast h
        rw [sq_abs]
        push_cast
        linarith
      · exfalso
        have : sinTerm x 0 = x := by simp [sinTerm]
        rw [this] at hN
        exact absurd h (not_lt.mpr hN)
    · obtain ⟨M, rfl⟩ : ∃ M, N = M + 1 := ⟨N - 1, by omega⟩
      have h1 := hlt M (by omega)
      have h1' : (ε : ℝ) < |(x : ℝ)| ^ (2 * M + 1) / ((2 * M + 1).factorial : ℝ) := by
        have : (ε : ℝ) < |((sinTerm x M : ℚ) : ℝ)| := by exact_mod_cast h1
        unfold sinTerm at this
        push_cast at this
        rwa [abs_div, abs_pow, Nat.abs_cast] at this
      rw [term_ratio] at hN'
      have h2 : |(x : ℝ)| ^ 2 / ((2 * M + 2) * (2 * M + 3)) < 1 := by
        by_contra hc
        have hc := not_lt.mp hc
        have h3 : 0 ≤ |(x : ℝ)| ^ (2 * M + 1) / ((2 * M + 1).factorial : ℝ) := by positivity
        have := le_mul_of_one_le_right h3 hc
        linarith
      rw [div_lt_one (by positivity)] at h2
      push_cast
      have hM : (0 : ℝ) ≤ M := by positivity
      nlinarith
  have dec : ∀ k, N ≤ k → |(x : ℝ)| ^ (2 * (k + 1) + 1) / ((2 * (k + 1) + 1).factorial : ℝ) ≤
      |(x : ℝ)| ^ (2 * k + 1) / ((2 * k + 1).factorial : ℝ) := by
    intro k hk
    apply term_dec (abs_nonneg _)
    have hk' : (N : ℝ) ≤ k := by exact_mod_cast hk
    have hM : (0 : ℝ) ≤ N := by positivity
    nlinarith
  have := sinSum_error x (N + 1) (fun k hk => dec k (by omega))
  rw [sinSum_cast]
  exact this.trans ((dec N le_rfl).trans hN')

/-! ### Arc tangent -/

/-- The terms of the series of arctan. -/
def atanTerm (x : ℚ) (k : ℕ) : ℚ := x ^ (2 * k + 1) / (2 * k + 1 : ℕ)

/-- What the loop has after its turn number `k`. -/
def atanResult (x : ℚ) (k : ℕ) : ℚ := x - x ^ 2 * ∑ j ∈ range k, (-1) ^ j * atanTerm x j

theorem arctanLoop_mono (p ε : ℚ) : ∀ n i b r g s, arctanLoop p ε n i b r g = some s →
    arctanLoop p ε (n + 1) i b r g = some s := by
  intro n
  induction n with
  | zero => intro i b r g s h; cases h
  | succ n ih =>
    intro i b r g s h
    rw [arctanLoop] at h ⊢
    by_cases hs : |b * p / (i : ℚ)| > ε
    · rw [if_pos hs] at h ⊢
      exact ih _ _ _ _ _ h
    · rw [if_neg hs] at h ⊢
      exact h

theorem arctanLoop_run (x ε : ℚ) (N : ℕ) (hN : |x ^ 2 * atanTerm x N| ≤ ε) (hlt : ∀ k < N, ε < |x ^ 2 * atanTerm x k|) :
    ∀ d k, k + d = N → arctanLoop (x * x) ε (d + 1) (2 * k + 1) (x ^ (2 * k + 1)) (atanResult x k) (odd? k) =
      some (atanResult x (N + 1)) := by
  have hsum : ∀ k : ℕ, x ^ (2 * k + 1) * (x * x) / ((2 * k + 1 : ℕ) : ℚ) = x ^ 2 * atanTerm x k := by
    intro k; unfold atanTerm; ring
  have hres : ∀ k : ℕ, atanResult x k + reverseSignIf (!odd? k) (x ^ 2 * atanTerm x k) = atanResult x (k + 1) := by
    intro k
    rw [← odd?_succ, reverseSignIf_eq]
    unfold atanResult
    rw [sum_range_succ]
    ring
  intro d
  induction d with
  | zero =>
    intro k hk
    obtain rfl : k = N := by omega
    rw [arctanLoop]
    rw [hsum, hres, if_neg (not_lt.mpr hN)]
  | succ d ih =>
    intro k hk
    rw [arctanLoop]
    rw [hsum, hres, if_pos (hlt k (by omega))]
    have := ih (k + 1) (by omega)
    rw [← this, ← odd?_succ]
    congr 1
    ring

theorem arctan_tendsto {y : ℝ} (h0 : 0 ≤ y) (h1 : y ≤ 1) :
    Tendsto (fun n => ∑ i ∈ range n, (-1 : ℝ) ^ i * (y ^ (2 * i + 1) / (2 * i + 1 : ℕ))) atTop (𝓝 (Real.arctan y)) := by
  rcases lt_or_eq_of_le h1 with h | h
  · have := (Real.hasSum_arctan (x := y) (by rw [Real.norm_eq_abs, abs_of_nonneg h0]; exact h)).tendsto_sum_nat
    refine this.congr fun n => sum_congr rfl fun i _ => ?_
    ring
  · subst h
    rw [Real.arctan_one]
    refine Real.tendsto_sum_pi_div_four.congr fun n => sum_congr rfl fun i _ => ?_
    push_cast
    rw [one_pow]
    ring

theorem atan_dec {y : ℝ} (h0 : 0 ≤ y) (h1 : y ≤ 1) (k : ℕ) :
    y ^ (2 * (k + 1) + 1) / ((2 * (k + 1) + 1 : ℕ) : ℝ) ≤ y ^ (2 * k + 1) / ((2 * k + 1 : ℕ) : ℝ) := by
  apply div_le_div₀ (by positivity)
  · exact pow_le_pow_of_le_one h0 h1 (by omega)
  · positivity
  · push_cast; linarith

theorem atan_exists_first {x ε : ℚ} (h0 : 0 ≤ x) (h1 : x ≤ 1) (hε : 0 < ε) :
    ∃ N, |x ^ 2 * atanTerm x N| ≤ ε ∧ ∀ k < N, ε < |x ^ 2 * atanTerm x k| := by
  have hex : ∃ N, |x ^ 2 * atanTerm x N| ≤ ε := by
    obtain ⟨N, hN⟩ := exists_nat_gt ε⁻¹
    refine ⟨N, ?_⟩
    have hp : (0 : ℚ) < ((2 * N + 1 : ℕ) : ℚ) := by positivity
    unfold atanTerm
    rw [abs_of_nonneg (by positivity), ← mul_div_assoc, div_le_iff₀ hp]
    have h2 : x ^ 2 * x ^ (2 * N + 1) ≤ 1 := by
      rw [← pow_add]
      exact pow_le_one₀ h0 h1
    have h3 : 1 ≤ ε * (2 * N + 1 : ℕ) := by
      have h4 : ε⁻¹ ≤ ((2 * N + 1 : ℕ) : ℚ) := by
        push_cast
        have : (0 : ℚ) ≤ N := by positivity
        linarith
      have := mul_le_mul_of_nonneg_left h4 hε.le
      rwa [mul_inv_cancel₀ hε.ne'] at this
    linarith
  classical
  exact ⟨Nat.find hex, Nat.find_spec hex, fun k hk => not_le.mp (Nat.find_min hex hk)⟩

theorem atanResult_within {x ε : ℚ} (h0 : 0 ≤ x) (h1 : x ≤ 1) (N : ℕ) (hN : |x ^ 2 * atanTerm x N| ≤ ε) :
    |((atanResult x (N + 1) : ℚ) : ℝ) - ((x : ℝ) - x ^ 2 * Real.arctan x)| ≤ ε := by
  have h0' : (0 : ℝ) ≤ x := by exact_mod_cast h0
  have h1' : (x : ℝ) ≤ 1 := by exact_mod_cast h1
  have := alt_tail_abs (arctan_tendsto h0' h1') (N + 1) (fun k _ => atan_dec h0' h1' k)
  have e : ((atanResult x (N + 1) : ℚ) : ℝ) - ((x : ℝ) - x ^ 2 * Real.arctan x) =
      -((x : ℝ) ^ 2 * (∑ i ∈ range (N + 1), (-1 : ℝ) ^ i * ((x : ℝ) ^ (2 * i + 1) / (2 * i + 1 : ℕ)) - Real.arctan x)) := by
    unfold atanResult atanTerm
    push_cast
    ring
  rw [e, abs_neg, abs_mul, abs_of_nonneg (by positivity : (0 : ℝ) ≤ (x : ℝ) ^ 2)]
  have hN' : (x : ℝ) ^ 2 * ((x : ℝ) ^ (2 * N + 1) / (2 * N + 1 : ℕ)) ≤ ε := by
    have : |(((x ^ 2 * atanTerm x N) : ℚ) : ℝ)| ≤ (ε : ℝ) := by exact_mod_cast hN
    unfold atanTerm at this
    push_cast at this
    rw [abs_of_nonneg (by positivity)] at this
    push_cast
    exact this
  calc _ ≤ (x : ℝ) ^ 2 * ((x : ℝ) ^ (2 * (N + 1) + 1) / (2 * (N + 1) + 1 : ℕ)) :=
        mul_le_mul_of_nonneg_left this (by positivity)
    _ ≤ (x : ℝ) ^ 2 * ((x : ℝ) ^ (2 * N + 1) / (2 * N + 1 : ℕ)) :=
        mul_le_mul_of_nonneg_left (atan_dec h0' h1' N) (by positivity)
    _ ≤ ε := hN'

end ELC.Series
