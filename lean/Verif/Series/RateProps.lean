import Verif.Series.Rate

/-!
C191: what one step of the computation of π gains.  `Pi.iteration^[k] {}` is the object after `k` steps.
-/
namespace ELC.Series

/-- C191, the object counts fourteen digits for each step. -/
theorem pi_counts (k : ℕ) : (Pi.iteration^[k] {}).accurate = 14 * k := (rate_all k).series.accurate

/-- C191 for the series alone: after `k + 1` terms its sum is right to about fourteen digits for each term. -/
theorem series_rate (k : ℕ) {S : ℝ}
    (hS : Filter.Tendsto (fun n => ∑ j ∈ Finset.range n, (-1 : ℝ) ^ j * chudnovskyTerm j) Filter.atTop (nhds S)) :
    |((-(Pi.iteration^[k + 1] {}).result : ℚ) : ℝ) - S| ≤ 40 / 10 ^ (14 * (k + 1)) := by
  have h := (rate_all (k + 1)).series.result
  rw [h, neg_neg]
  push_cast
  simp only [chudQ_cast]
  exact (chud_error hS (k + 1)).trans (chud_rate k)

/-- C191 is false of the program, after every number of steps: the result of `k` steps is never right to the `14 k` digits
the object counts, not even to `14 k - 8`. -/
theorem pi_rate_refuted {k : ℕ} (hk : 1 ≤ k) {x : ℝ} (hx : IsChudnovsky x) :
    1 / 10 ^ (14 * k - 8) < |(((Pi.iteration^[k] {}).value : ℚ) : ℝ) - x| := by
  obtain ⟨k, rfl⟩ : ∃ j, k = j + 1 := ⟨k - 1, by omega⟩
  have h := rate_all (k + 1)
  generalize Pi.iteration^[k + 1] {} = p at h ⊢
  have h1 := value_least h.series hx
  have h2 := (root_distance h).1
  have h3 := chud_rate k
  have h4 : (1 : ℝ) / 10 ^ (14 * (k + 1) - 8) ≤ guess ^ 2 ^ (p.multiplier - 3) := by
    apply guess_least
    rcases h.most with e | e
    · rw [e]; norm_num; omega
    · have h8 := eighth h.three
      have : 2 ^ p.multiplier = 2 * 2 ^ (p.multiplier - 1) := by
        rw [← pow_succ']
        congr 1
        have := h.three
        omega
      omega
  have h5 : (40 : ℝ) / 10 ^ (14 * (k + 1)) ≤ 1 / 10 ^ (14 * (k + 1) - 8) := by
    rw [show 14 * (k + 1) = (14 * (k + 1) - 8) + 8 by omega, Nat.add_sub_cancel, pow_add, div_le_div_iff₀ (by positivity) (by positivity)]
    nlinarith [show (0 : ℝ) < 10 ^ (14 * (k + 1) - 8) by positivity]
  have h6 : (0 : ℝ) < 1 / 10 ^ (14 * (k + 1) - 8) := by positivity
  linarith

/-- And there are always later steps where only half of the digits are right: the steps saved for the root were needed. -/
theorem pi_half_rate_refuted (n : ℕ) : ∃ k, n ≤ k ∧ ∀ x : ℝ, IsChudnovsky x →
    1 / 10 ^ (7 * k + 3) < |(((Pi.iteration^[k] {}).value : ℚ) : ℝ) - x| := by
  -- the last step before the root is improved again
  have hbig : 14 * n < 2 ^ (14 * n + 7) := by
    have := Nat.lt_two_pow_self (n := 14 * n)
    exact this.trans (Nat.pow_lt_pow_right (by norm_num) (by omega))
  have h128 : 128 ≤ 2 ^ (14 * n + 7) := by
    rw [pow_add]; have := Nat.two_pow_pos (14 * n); omega
  refine ⟨(2 ^ (14 * n + 7) + 7) / 14, by omega, fun x hx => ?_⟩
  generalize hM : 14 * n + 7 = M at *
  have hk : ∃ j, (2 ^ M + 7) / 14 = j + 1 ∧ 4 ≤ j := ⟨(2 ^ M + 7) / 14 - 1, by omega⟩
  obtain ⟨k, hk, hk4⟩ := hk
  have hlow : 2 ^ M ≤ 14 * (k + 1) + 6 := by omega
  have hhigh : 14 * (k + 1) < 2 ^ M + 8 := by omega
  rw [hk]
  have h := rate_all (k + 1)
  generalize Pi.iteration^[k + 1] {} = p at h ⊢
  have h1 := value_least h.series hx
  have h2 := (root_distance h).1
  have h3 := chud_rate k
  have h8 := eighth h.three
  have hl := h.later (by omega)
  have hmult : p.multiplier ≤ M := by
    rcases h.most with e | e
    · omega
    · have : p.multiplier - 1 < M := (Nat.pow_lt_pow_iff_right (by norm_num : 1 < 2)).mp (by omega)
      omega
  have hle : 2 ^ p.multiplier ≤ 2 ^ M := Nat.pow_le_pow_right (by norm_num) hmult
  have h4 : (1 : ℝ) / 10 ^ (7 * (k + 1) + 3) ≤ guess ^ 2 ^ (p.multiplier - 3) := guess_least (by omega)
  have h5 : (40 : ℝ) / 10 ^ (14 * (k + 1)) ≤ 1 / 10 ^ (7 * (k + 1) + 3) := by
    rw [show 14 * (k + 1) = (7 * (k + 1) + 3) + (7 * k + 4) by ring, pow_add, div_le_div_iff₀ (by positivity) (by positivity)]
    have a : (10 : ℝ) ^ 4 ≤ 10 ^ (7 * k + 4) := pow_le_pow_right₀ (by norm_num) (by omega)
    nlinarith [show (0 : ℝ) < 10 ^ (7 * (k + 1) + 3) by positivity]
  have h6 : (0 : ℝ) < 1 / 10 ^ (7 * (k + 1) + 3) := by positivity
  linarith

/-- C191, what is true: six digits for each step. -/
theorem pi_rate_partial {k : ℕ} (hk : 2 ≤ k) {x : ℝ} (hx : IsChudnovsky x) :
    |(((Pi.iteration^[k] {}).value : ℚ) : ℝ) - x| ≤ 1 / 10 ^ (6 * k - 7) := by
  obtain ⟨k, rfl⟩ : ∃ j, k = j + 2 := ⟨k - 2, by omega⟩
  have h := rate_all (k + 2)
  generalize Pi.iteration^[k + 2] {} = p at h ⊢
  have h1 := value_error (m := k + 1) h.series hx
  have h2 := (root_distance h).2
  have h3 := chud_rate (k + 1)
  have h8 := eighth h.three
  have hl := h.least
  have h4 : guess ^ 2 ^ (p.multiplier - 3) ≤ (1 : ℝ) / 10 ^ (6 * k + 6) := guess_most (by omega)
  have e : (1 : ℝ) / 10 ^ (6 * (k + 2) - 7) = 10 * (1 / 10 ^ (6 * k + 6)) := by
    rw [show 6 * (k + 2) - 7 = 6 * k + 5 by omega, pow_succ _ (6 * k + 5)]
    have : (10 : ℝ) ^ (6 * k + 5) ≠ 0 := by positivity
    field_simp
  rw [e]
  have h5 : (40 : ℝ) / 10 ^ (14 * (k + 1 + 1)) ≤ 1 / 10 ^ (6 * k + 6) := by
    rw [show 14 * (k + 1 + 1) = (6 * k + 6) + (8 * k + 22) by ring, pow_add, div_le_div_iff₀ (by positivity) (by positivity)]
    have a : (10 : ℝ) ^ 22 ≤ 10 ^ (8 * k + 22) := pow_le_pow_right₀ (by norm_num) (by omega)
    nlinarith [show (0 : ℝ) < 10 ^ (6 * k + 6) by positivity]
  have h6 : (0 : ℝ) < 1 / 10 ^ (6 * k + 6) := by positivity
  have e2 : chudnovskyTerm (k + 1 + 1) ≤ 1 / 10 ^ (6 * k + 6) := h3.trans h5
  linarith

example : ∃ x, IsChudnovsky x ∧ 1 / 10 ^ 20 < |(((Pi.iteration^[2] {}).value : ℚ) : ℝ) - x| ∧
    |(((Pi.iteration^[2] {}).value : ℚ) : ℝ) - x| ≤ 1 / 10 ^ 5 := by
  obtain ⟨S, hS⟩ := chud_sum_exists
  refine ⟨√640320 / (12 * S), ?_, ?_, ?_⟩
  · exact ⟨S, hS, by rw [one_div, inv_div]⟩
  · exact pi_rate_refuted (k := 2) (by norm_num) ⟨S, hS, by rw [one_div, inv_div]⟩
  · exact pi_rate_partial (k := 2) le_rfl ⟨S, hS, by rw [one_div, inv_div]⟩

end ELC.Series
