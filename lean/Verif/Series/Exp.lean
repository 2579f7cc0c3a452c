import Verif.Series.PiInv

open Filter Finset Topology

namespace ELC.Series

/-! ### exp and log -/

theorem expImpl_never {x : ℚ} (hx : x ≠ 0) : ∀ (m : ℕ) (sum n : ℚ) (i : ℕ) (t : ℚ), n ≠ 0 → i ≠ 0 → t ≠ 0 →
    expImpl x m sum n i t = none := by
  intro m
  induction m with
  | zero => intros; rfl
  | succ m ih =>
    intro sum n i t hn hi ht
    rw [expImpl]
    have : t / n ≠ 0 := div_ne_zero ht hn
    rw [if_neg (fun h => this (by linarith))]
    exact ih _ _ _ _ (mul_ne_zero hn (by exact_mod_cast hi)) (by omega) (mul_ne_zero ht hx)

theorem exp_zero (m : ℕ) : exp 0 (m + 1) = some 1 := by
  unfold exp
  rw [expImpl, if_pos (by norm_num)]

theorem exp_never {v : ℚ} (h : v ≠ 0) (m : ℕ) : exp v m = none :=
  expImpl_never h m 1 1 2 v one_ne_zero (by norm_num) h

theorem log_one (m : ℕ) : log 1 (m + 1) = some 0 := by
  unfold log
  rw [logImpl, exp_zero]
  norm_num

theorem log_never {a : ℚ} (h0 : a ≠ -1) (h : a ≠ 1) (m : ℕ) : log a m = none := by
  rcases m with _ | m
  · rfl
  unfold log
  rw [logImpl, exp_zero]
  have h1 : a + 1 ≠ 0 := fun hc => h0 (by linarith)
  have hne : 2 * (a - 1) / (a + 1) ≠ 0 := div_ne_zero (mul_ne_zero two_ne_zero (sub_ne_zero.mpr h)) h1
  have hne' : ¬ (0 : ℚ) = 0 + 2 * (a - 1) / (a + 1) := fun hc => hne (by linarith)
  simp only [Option.bind_eq_bind, Option.bind_some]
  rw [if_neg hne']
  rcases m with _ | m
  · rfl
  · rw [logImpl, exp_never (by rwa [zero_add])]
    rfl

/-! ### A sharper bound for the sine -/

theorem factorial_middle (c : ℕ) : ∀ m, m < c → (c + m).factorial ≤ c ^ (2 * m + 1) * (c - m - 1).factorial := by
  intro m
  induction m with
  | zero =>
    intro h
    obtain ⟨d, rfl⟩ : ∃ d, c = d + 1 := ⟨c - 1, by omega⟩
    simp [Nat.factorial_succ]
  | succ m ih =>
    intro h
    obtain ⟨d, rfl⟩ : ∃ d, c = m + 1 + (d + 1) := ⟨c - m - 2, by omega⟩
    have h1 := ih (by omega)
    have e1 : m + 1 + (d + 1) - m - 1 = d + 1 := by omega
    have e2 : m + 1 + (d + 1) - (m + 1) - 1 = d := by omega
    rw [e1, Nat.factorial_succ] at h1
    rw [e2, show m + 1 + (d + 1) + (m + 1) = m + 1 + (d + 1) + m + 1 by ring, Nat.factorial_succ]
    calc (m + 1 + (d + 1) + m + 1) * (m + 1 + (d + 1) + m).factorial
        ≤ (m + 1 + (d + 1) + m + 1) * ((m + 1 + (d + 1)) ^ (2 * m + 1) * ((d + 1) * d.factorial)) := Nat.mul_le_mul_left _ h1
      _ = ((m + 1 + (d + 1) + m + 1) * (d + 1)) * ((m + 1 + (d + 1)) ^ (2 * m + 1) * d.factorial) := by ring
      _ ≤ ((m + 1 + (d + 1)) ^ 2) * ((m + 1 + (d + 1)) ^ (2 * m + 1) * d.factorial) := by
          apply Nat.mul_le_mul_right
          nlinarith
      _ = (m + 1 + (d + 1)) ^ (2 * (m + 1) + 1) * d.factorial := by ring

theorem sinSum_half (x ε : ℚ) (N : ℕ) (hN : |sinTerm x N| ≤ ε) (hε : ε ≤ 1) :
    |((sinSum x N : ℚ) : ℝ) - Real.sin x| ≤ ε / 2 := by
  have hN' : |(x : ℝ)| ^ (2 * N + 1) / ((2 * N + 1).factorial : ℝ) ≤ ε := by
    have : |((sinTerm x N : ℚ) : ℝ)| ≤ ε := by exact_mod_cast hN
    unfold sinTerm at this
    push_cast at this
    rwa [abs_div, abs_pow, Nat.abs_cast] at this
  have hε' : (ε : ℝ) ≤ 1 := by exact_mod_cast hε
  have key : |(x : ℝ)| ^ 2 ≤ (2 * N + 2) * (2 * N + 3) / 2 := by
    by_contra hc
    have hc := not_le.mp hc
    have hlow : ((N : ℝ) + 1) < |(x : ℝ)| := by
      apply lt_of_pow_lt_pow_left₀ 2 (abs_nonneg _)
      have hM : (0 : ℝ) ≤ N := by positivity
      nlinarith
    have h1 : ((2 * N + 1).factorial : ℝ) ≤ ((N : ℝ) + 1) ^ (2 * N + 1) := by
      have := factorial_middle (N + 1) N (by omega)
      rw [show N + 1 + N = 2 * N + 1 by ring, show N + 1 - N - 1 = 0 by omega, Nat.factorial_zero, mul_one] at this
      exact_mod_cast this
    have h2 : ((N : ℝ) + 1) ^ (2 * N + 1) < |(x : ℝ)| ^ (2 * N + 1) := pow_lt_pow_left₀ hlow (by positivity) (by omega)
    have h3 : (1 : ℝ) < |(x : ℝ)| ^ (2 * N + 1) / ((2 * N + 1).factorial : ℝ) := by
      rw [one_lt_div (by positivity)]
      linarith
    linarith
  have dec : ∀ k, N + 1 ≤ k → |(x : ℝ)| ^ (2 * (k + 1) + 1) / ((2 * (k + 1) + 1).factorial : ℝ) ≤
      |(x : ℝ)| ^ (2 * k + 1) / ((2 * k + 1).factorial : ℝ) := by
    intro k hk
    apply term_dec (abs_nonneg _)
    have hk' : (N : ℝ) + 1 ≤ k := by exact_mod_cast hk
    have hM : (0 : ℝ) ≤ N := by positivity
    nlinarith
  have := sinSum_error x (N + 1) dec
  rw [term_ratio] at this
  rw [sinSum_cast]
  refine this.trans ?_
  have h1 : |(x : ℝ)| ^ 2 / ((2 * N + 2) * (2 * N + 3)) ≤ 1 / 2 := by
    rw [div_le_iff₀ (by positivity)]
    linarith
  have h2 : (0 : ℝ) ≤ |(x : ℝ)| ^ (2 * N + 1) / ((2 * N + 1).factorial : ℝ) := by positivity
  calc _ ≤ (ε : ℝ) * (1 / 2) := mul_le_mul hN' h1 (by positivity) (h2.trans hN')
    _ = _ := by ring

/-! ### Results -/

theorem sin_gives (x : ℚ) {ε : ℚ} (hε : 0 < ε) :
    ∃ N, Gives (sin x ε) (sinSum x N) ∧ |sinTerm x N| ≤ ε ∧ ∀ k < N, ε < |sinTerm x k| := by
  obtain ⟨N, h1, h2⟩ := exists_first x hε
  refine ⟨N, ?_, h1, h2⟩
  have := sinLoop_run x ε N h1 h2 N 0 (by omega)
  have e : sinLoop (x * x) ε (N + 1) 1 x x false = some (sinSum x N) := by
    simpa [sinTerm, sinSum, odd?] using this
  exact gives_of_mono (f := sin x ε) (fun n r h => sinLoop_mono _ _ n _ _ _ _ r h) (N + 1) e

theorem arctanSeries_gives {x ε : ℚ} (h0 : 0 ≤ x) (h1 : x ≤ 1) (hε : 0 < ε) :
    ∃ r, Gives (arctanSeries x ε) r ∧ |(r : ℝ) - ((x : ℝ) - x ^ 2 * Real.arctan x)| ≤ ε := by
  obtain ⟨N, h2, h3⟩ := atan_exists_first h0 h1 hε
  refine ⟨atanResult x (N + 1), ?_, atanResult_within h0 h1 N h2⟩
  have := arctanLoop_run x ε N h2 h3 N 0 (by omega)
  have e : arctanLoop (x * x) ε (N + 1) 1 x x false = some (atanResult x (N + 1)) := by
    simpa [atanResult, odd?] using this
  exact gives_of_mono (f := arctanSeries x ε) (fun n r h => arctanLoop_mono _ _ n _ _ _ _ r h) (N + 1) e

/-- `(1+x²) arctan x > x` for positive `x`. -/
theorem arctan_gap {x : ℝ} (hx : 0 < x) : x < (1 + x ^ 2) * Real.arctan x := by
  have h := Real.sin_lt (x := 2 * Real.arctan x) (by have := Real.arctan_pos.mpr hx; linarith)
  rw [Real.sin_two_mul, Real.sin_arctan, Real.cos_arctan] at h
  have hp : 0 < 1 + x ^ 2 := by positivity
  have hs : √(1 + x ^ 2) * √(1 + x ^ 2) = 1 + x ^ 2 := Real.mul_self_sqrt hp.le
  have e : 2 * (x / √(1 + x ^ 2)) * (1 / √(1 + x ^ 2)) = 2 * (x / (1 + x ^ 2)) := by
    rw [mul_assoc, div_mul_div_comm, mul_one, hs]
  rw [e] at h
  have h' : x / (1 + x ^ 2) < Real.arctan x := by linarith
  rw [div_lt_iff₀ hp] at h'
  linarith

theorem gap_nonneg {x : ℝ} (h0 : 0 ≤ x) (h1 : x ≤ 1) : 0 ≤ x - x ^ 2 * Real.arctan x := by
  have : Real.arctan x ≤ x := by
    have := Real.le_tan (Real.arctan_nonneg.mpr h0) (Real.arctan_lt_pi_div_two x)
    rwa [Real.tan_arctan] at this
  have hx : 0 ≤ Real.arctan x := Real.arctan_nonneg.mpr h0
  nlinarith

theorem arctan_gives_unit (pi : ℚ) {x ε : ℚ} (h0 : 0 ≤ x) (h1 : x ≤ 1) (hε : 0 < ε) :
    ∃ r, Gives (arctan pi x ε) r ∧ |(r : ℝ) - ((x : ℝ) - x ^ 2 * Real.arctan x)| ≤ ε := by
  obtain ⟨r, h2, h3⟩ := arctanSeries_gives h0 h1 hε
  refine ⟨r, ?_, h3⟩
  obtain ⟨n, hn⟩ := h2
  refine ⟨n, fun m hm => ?_⟩
  unfold arctan
  rw [if_neg (not_lt.mpr h0), if_neg (not_lt.mpr h1)]
  exact hn m hm

end ELC.Series
