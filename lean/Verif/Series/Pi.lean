import Verif.Series.Alternating
import Mathlib.Analysis.Real.Pi.Bounds
import Mathlib.Tactic.NormNum

open Filter Finset Topology

namespace ELC.Series

/-! ### The series -/

/-- The terms as fractions. -/
def chudQ (k : ℕ) : ℚ :=
  (((545140134 * k + 13591409) * (6 * k).factorial : ℕ) : ℚ) /
    (((3 * k).factorial * k.factorial ^ 3 * 640320 ^ (3 * k + 1) : ℕ) : ℚ)

theorem chudQ_cast (k : ℕ) : ((chudQ k : ℚ) : ℝ) = chudnovskyTerm k := by
  unfold chudQ chudnovskyTerm
  push_cast
  ring

theorem chud_pos (k : ℕ) : 0 < chudnovskyTerm k := by
  unfold chudnovskyTerm
  positivity

theorem fact6 (k : ℕ) : (6 * (k + 1)).factorial =
    (6 * k).factorial * ((6 * k + 1) * (6 * k + 2) * (6 * k + 3) * (6 * k + 4) * (6 * k + 5) * (6 * k + 6)) := by
  rw [show 6 * (k + 1) = 6 * k + 5 + 1 by ring, Nat.factorial_succ, show 6 * k + 5 = 6 * k + 4 + 1 by ring, Nat.factorial_succ,
    show 6 * k + 4 = 6 * k + 3 + 1 by ring, Nat.factorial_succ, show 6 * k + 3 = 6 * k + 2 + 1 by ring, Nat.factorial_succ,
    show 6 * k + 2 = 6 * k + 1 + 1 by ring, Nat.factorial_succ, Nat.factorial_succ]
  ring

theorem fact3 (k : ℕ) : (3 * (k + 1)).factorial = (3 * k).factorial * ((3 * k + 1) * (3 * k + 2) * (3 * k + 3)) := by
  rw [show 3 * (k + 1) = 3 * k + 2 + 1 by ring, Nat.factorial_succ, show 3 * k + 2 = 3 * k + 1 + 1 by ring, Nat.factorial_succ,
    Nat.factorial_succ]
  ring

/-- Each term is less than a millionth of the one before. -/
theorem chud_ratio (k : ℕ) : chudnovskyTerm (k + 1) ≤ chudnovskyTerm k / 10 ^ 6 := by
  unfold chudnovskyTerm
  rw [div_div, div_le_div_iff₀ (by positivity) (by positivity), fact6, fact3, Nat.factorial_succ k,
    show 3 * (k + 1) + 1 = (3 * k + 1) + 3 by ring, pow_add _ (3 * k + 1) 3]
  push_cast
  have ha : (0 : ℝ) < ((6 * k).factorial : ℝ) := by positivity
  have hb : (0 : ℝ) < ((3 * k).factorial : ℝ) := by positivity
  have hc : (0 : ℝ) < (k.factorial : ℝ) := by positivity
  have hd : (0 : ℝ) < (640320 : ℝ) ^ (3 * k + 1) := by positivity
  generalize ((6 * k).factorial : ℝ) = a at *
  generalize ((3 * k).factorial : ℝ) = b at *
  generalize (k.factorial : ℝ) = c at *
  generalize (640320 : ℝ) ^ (3 * k + 1) = d at *
  have hk : (0 : ℝ) ≤ (k : ℝ) := by positivity
  generalize (k : ℝ) = x at *
  have key : ((6 * x + 1) * (6 * x + 2) * (6 * x + 3) * (6 * x + 4) * (6 * x + 5) * (6 * x + 6)) *
      (545140134 * (x + 1) + 13591409) * 10 ^ 6 ≤
      (545140134 * x + 13591409) * (((3 * x + 1) * (3 * x + 2) * (3 * x + 3)) * (x + 1) ^ 3 * 640320 ^ 3) := by
    have h1 : (6 * x + 1) * (6 * x + 3) * (6 * x + 5) ≤ 216 * (x + 1) ^ 3 := by nlinarith [mul_nonneg hk hk]
    have h2 : 545140134 * (x + 1) + 13591409 ≤ 42 * (545140134 * x + 13591409) := by linarith
    have h3 : ((6 * x + 1) * (6 * x + 2) * (6 * x + 3) * (6 * x + 4) * (6 * x + 5) * (6 * x + 6)) =
        8 * ((3 * x + 1) * (3 * x + 2) * (3 * x + 3)) * ((6 * x + 1) * (6 * x + 3) * (6 * x + 5)) := by ring
    rw [h3]
    have hq : 0 ≤ (3 * x + 1) * (3 * x + 2) * (3 * x + 3) := by positivity
    generalize (3 * x + 1) * (3 * x + 2) * (3 * x + 3) = q at *
    have h4 := mul_le_mul h1 h2 (by positivity) (by positivity)
    have h5 := mul_le_mul_of_nonneg_left h4 hq
    have h6 : 0 ≤ q * ((x + 1) ^ 3 * (545140134 * x + 13591409)) := by positivity
    nlinarith
  have := mul_le_mul_of_nonneg_left key (by positivity : 0 ≤ a * b * c ^ 3 * d)
  nlinarith

theorem chud_dec (k : ℕ) : chudnovskyTerm (k + 1) ≤ chudnovskyTerm k := by
  have h := chud_ratio k
  have := chud_pos k
  linarith

theorem chud_anti : Antitone chudnovskyTerm := antitone_nat_of_succ_le chud_dec

theorem chud_pow (k : ℕ) : chudnovskyTerm k ≤ chudnovskyTerm 0 * (1 / 2) ^ k := by
  induction k with
  | zero => simp
  | succ k ih =>
    have h := chud_ratio k
    have := chud_pos k
    rw [pow_succ]
    linarith

theorem chud_tendsto : Tendsto chudnovskyTerm atTop (𝓝 0) := by
  refine squeeze_zero (fun k => (chud_pos k).le) chud_pow ?_
  have : Tendsto (fun k : ℕ => chudnovskyTerm 0 * ((1 : ℝ) / 2) ^ k) atTop (𝓝 (chudnovskyTerm 0 * 0)) :=
    (tendsto_pow_atTop_nhds_zero_of_lt_one (by norm_num) (by norm_num)).const_mul _
  rwa [mul_zero] at this

theorem chud_sum_exists : ∃ S : ℝ, Tendsto (fun n => ∑ k ∈ range n, (-1 : ℝ) ^ k * chudnovskyTerm k) atTop (𝓝 S) :=
  chud_anti.tendsto_alternating_series_of_tendsto_zero chud_tendsto

theorem chud_zero : chudnovskyTerm 0 = 13591409 / 640320 := by simp [chudnovskyTerm]

theorem chud_one : chudnovskyTerm 1 = 720 * 558731543 / (6 * 640320 ^ 4) := by
  norm_num [chudnovskyTerm, Nat.factorial]

section
variable {S : ℝ} (hS : Tendsto (fun n => ∑ k ∈ range n, (-1 : ℝ) ^ k * chudnovskyTerm k) atTop (𝓝 S))
include hS

theorem chud_error (n : ℕ) : |∑ k ∈ range n, (-1 : ℝ) ^ k * chudnovskyTerm k - S| ≤ chudnovskyTerm n :=
  alt_tail_abs hS n fun k _ => chud_dec k

theorem chud_bounds : chudnovskyTerm 0 - chudnovskyTerm 1 ≤ S ∧ S ≤ chudnovskyTerm 0 - chudnovskyTerm 1 + chudnovskyTerm 2 := by
  have h1 := chud_anti.alternating_series_le_tendsto hS 1
  have h2 := chud_anti.tendsto_le_alternating_series hS 1
  simp [sum_range_succ] at h1 h2
  constructor <;> linarith

theorem chud_S : 21.2 ≤ S ∧ S ≤ 21.3 := by
  obtain ⟨h1, h2⟩ := chud_bounds hS
  have h3 := chud_ratio 1
  rw [chud_zero, chud_one] at h1 h2
  rw [chud_one] at h3
  constructor
  · refine le_trans ?_ h1; norm_num
  · refine h2.trans ?_
    norm_num at h3 ⊢
    linarith

theorem chud_partial (n : ℕ) (hn : n ≠ 0) : 21 ≤ ∑ k ∈ range n, (-1 : ℝ) ^ k * chudnovskyTerm k := by
  have h1 := abs_le.mp (chud_error hS n)
  have h2 : chudnovskyTerm n ≤ chudnovskyTerm 1 := chud_anti (by omega)
  have h3 := (chud_S hS).1
  have h4 : chudnovskyTerm 1 ≤ 0.1 := by rw [chud_one]; norm_num
  linarith [h1.1]

end

theorem root_bounds : 800.19 < √(640320 : ℝ) ∧ √(640320 : ℝ) < 800.2 := by
  constructor
  · apply Real.lt_sqrt_of_sq_lt; norm_num
  · rw [Real.sqrt_lt' (by norm_num)]; norm_num

/-- The number the series gives agrees with π in nineteen digits. -/
theorem chud_pi {p : ℝ} (h : IsChudnovsky p) : |p - Real.pi| ≤ 1 / 10 ^ 19 := by
  obtain ⟨S, hS, hp⟩ := h
  have hb := chud_bounds hS
  have hSr := chud_S hS
  have hσ : 0 < √(640320 : ℝ) := Real.sqrt_pos.mpr (by norm_num)
  have hp' : p = √640320 / (12 * S) := by
    have h12 : 12 * S ≠ 0 := by linarith
    rw [one_div] at hp
    rw [← inv_inv p, hp, inv_div]
  have h3 := chud_ratio 1
  rw [chud_zero, chud_one] at hb
  rw [chud_one] at h3
  have hlo : (800.1999750062480475583 : ℝ) < √640320 := by
    apply Real.lt_sqrt_of_sq_lt; norm_num
  have hhi : √(640320 : ℝ) < 800.1999750062480475584 := by
    rw [Real.sqrt_lt' (by norm_num)]; norm_num
  have g1 := Real.pi_gt_d20
  have g2 := Real.pi_lt_d20
  have h12 : 0 < 12 * S := by linarith
  rw [abs_le]
  constructor
  · have : Real.pi - 1 / 10 ^ 19 ≤ p := by
      rw [hp', le_div_iff₀ h12]
      have hS2 : S ≤ 13591409 / 640320 - 720 * 558731543 / (6 * 640320 ^ 4) + 720 * 558731543 / (6 * 640320 ^ 4) / 10 ^ 6 :=
        hb.2.trans (by linarith)
      have h5 : (Real.pi - 1 / 10 ^ 19) * (12 * S) ≤ (3.14159265358979323847 - 1 / 10 ^ 19) *
          (12 * (13591409 / 640320 - 720 * 558731543 / (6 * 640320 ^ 4) + 720 * 558731543 / (6 * 640320 ^ 4) / 10 ^ 6)) :=
        mul_le_mul (by linarith) (by linarith) h12.le (by norm_num)
      refine h5.trans (le_trans ?_ hlo.le)
      norm_num
    linarith
  · have : p ≤ Real.pi + 1 / 10 ^ 19 := by
      rw [hp', div_le_iff₀ h12]
      have h5 : (3.14159265358979323846 + 1 / 10 ^ 19) * (12 * (13591409 / 640320 - 720 * 558731543 / (6 * 640320 ^ 4))) ≤
          (Real.pi + 1 / 10 ^ 19) * (12 * S) :=
        mul_le_mul (by linarith) (by linarith [hb.1]) (by norm_num) (by positivity)
      refine le_trans (le_trans hhi.le ?_) h5
      norm_num
    linarith

end ELC.Series
