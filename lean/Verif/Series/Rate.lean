import Verif.Series.PiInv

open Filter Finset Topology

namespace ELC.Series

/-! ### The series: fourteen digits for each term -/

theorem chud_ratio14 (k : ℕ) : chudnovskyTerm (k + 2) ≤ chudnovskyTerm (k + 1) / 10 ^ 14 := by
  rw [show k + 2 = (k + 1) + 1 by ring]
  have hn : (1 : ℝ) ≤ ((k + 1 : ℕ) : ℝ) := by push_cast; linarith [(Nat.cast_nonneg k : (0 : ℝ) ≤ k)]
  generalize k + 1 = n at *
  unfold chudnovskyTerm
  rw [div_div, div_le_div_iff₀ (by positivity) (by positivity), fact6, fact3, Nat.factorial_succ n,
    show 3 * (n + 1) + 1 = (3 * n + 1) + 3 by ring, pow_add _ (3 * n + 1) 3]
  push_cast
  have ha : (0 : ℝ) < ((6 * n).factorial : ℝ) := by positivity
  have hb : (0 : ℝ) < ((3 * n).factorial : ℝ) := by positivity
  have hc : (0 : ℝ) < (n.factorial : ℝ) := by positivity
  have hd : (0 : ℝ) < (640320 : ℝ) ^ (3 * n + 1) := by positivity
  generalize ((6 * n).factorial : ℝ) = a at *
  generalize ((3 * n).factorial : ℝ) = b at *
  generalize (n.factorial : ℝ) = c at *
  generalize (640320 : ℝ) ^ (3 * n + 1) = d at *
  generalize (n : ℝ) = x at *
  have hk : 0 ≤ x := by linarith
  have key : ((6 * x + 1) * (6 * x + 2) * (6 * x + 3) * (6 * x + 4) * (6 * x + 5) * (6 * x + 6)) *
      (545140134 * (x + 1) + 13591409) * 10 ^ 14 ≤
      (545140134 * x + 13591409) * (((3 * x + 1) * (3 * x + 2) * (3 * x + 3)) * (x + 1) ^ 3 * 640320 ^ 3) := by
    have h1 : (6 * x + 1) * (6 * x + 3) * (6 * x + 5) ≤ 150 * (x + 1) ^ 3 ∨ 2 ≤ x := by
      by_cases h : 2 ≤ x
      · exact Or.inr h
      · left
        have h2 : x ≤ 2 := by linarith
        nlinarith [mul_nonneg hk hk, mul_nonneg (sub_nonneg.mpr hn) (sub_nonneg.mpr h2),
          mul_nonneg (mul_nonneg hk (sub_nonneg.mpr hn)) (sub_nonneg.mpr h2)]
    have h3 : ((6 * x + 1) * (6 * x + 2) * (6 * x + 3) * (6 * x + 4) * (6 * x + 5) * (6 * x + 6)) =
        8 * ((3 * x + 1) * (3 * x + 2) * (3 * x + 3)) * ((6 * x + 1) * (6 * x + 3) * (6 * x + 5)) := by ring
    rw [h3]
    have hq : 0 ≤ (3 * x + 1) * (3 * x + 2) * (3 * x + 3) := by positivity
    generalize (3 * x + 1) * (3 * x + 2) * (3 * x + 3) = q at *
    rcases h1 with h1 | h1
    · have h2 : 545140134 * (x + 1) + 13591409 ≤ 2 * (545140134 * x + 13591409) := by linarith
      have h4 := mul_le_mul h1 h2 (by positivity) (by positivity)
      have h5 := mul_le_mul_of_nonneg_left h4 hq
      have h6 : 0 ≤ q * ((x + 1) ^ 3 * (545140134 * x + 13591409)) := by positivity
      nlinarith
    · have h1' : (6 * x + 1) * (6 * x + 3) * (6 * x + 5) ≤ 216 * (x + 1) ^ 3 := by nlinarith [mul_nonneg hk hk]
      have h2 : 545140134 * (x + 1) + 13591409 ≤ 3 / 2 * (545140134 * x + 13591409) := by linarith
      have h4 := mul_le_mul h1' h2 (by positivity) (by positivity)
      have h5 := mul_le_mul_of_nonneg_left h4 hq
      have h6 : 0 ≤ q * ((x + 1) ^ 3 * (545140134 * x + 13591409)) := by positivity
      nlinarith
  have := mul_le_mul_of_nonneg_left key (by positivity : 0 ≤ a * b * c ^ 3 * d)
  nlinarith

theorem chud_rate : ∀ k : ℕ, chudnovskyTerm (k + 1) ≤ 40 / 10 ^ (14 * (k + 1))
  | 0 => by rw [chud_one]; norm_num
  | k + 1 => by
    have h1 := chud_ratio14 k
    have h2 := chud_rate k
    rw [show 14 * (k + 1 + 1) = 14 * (k + 1) + 14 by ring, pow_add, ← div_div]
    exact h1.trans (div_le_div_of_nonneg_right h2 (by norm_num))

/-! ### The root: each step squares the distance -/

theorem newton_square {a s : ℝ} (ha : 0 < a) (hs : 0 < s) :
    ((a + s ^ 2 / a) / 2 - s) / ((a + s ^ 2 / a) / 2 + s) = ((a - s) / (a + s)) ^ 2 := by
  have h : (a + s ^ 2 / a) / 2 + s ≠ 0 := by positivity
  have h2 : a + s ≠ 0 := by positivity
  rw [div_pow, div_eq_div_iff h (by positivity)]
  field_simp
  ring

/-- The relative distance of the first guess. -/
noncomputable def guess : ℝ := (√640320 - 800) / (800 + √640320)

theorem guess_bounds : 1 / 10 ^ 4 ≤ guess ∧ guess ≤ 1 / 8000 := by
  have h := root_bounds
  unfold guess
  constructor
  · rw [div_le_div_iff₀ (by norm_num) (by linarith [h.1])]
    linarith [h.1]
  · rw [div_le_div_iff₀ (by linarith [h.1]) (by norm_num)]
    linarith [h.1, h.2]

/-- The state after `k` turns. -/
structure Rate (p : Pi) (k : ℕ) : Prop where
  good : Good p
  series : OnSeries p k
  three : 3 ≤ p.multiplier
  root : |((p.root : ℝ) - √640320) / ((p.root : ℝ) + √640320)| = guess ^ 2 ^ (p.multiplier - 3)
  most : p.multiplier = 3 ∨ 2 ^ (p.multiplier - 1) + 8 ≤ 14 * k
  least : 14 * k ≤ 2 ^ p.multiplier + 12
  later : 4 ≤ k → 14 * k < 2 ^ p.multiplier + 8

theorem rate_start : Rate {} 0 := by
  refine ⟨good_start, onSeries_start, le_rfl, ?_, Or.inl rfl, by norm_num, by norm_num⟩
  have h := root_bounds
  have e : ((({} : Pi).root : ℚ) : ℝ) = 800 := by norm_num
  rw [e]
  show _ = guess ^ 2 ^ (3 - 3)
  norm_num
  unfold guess
  rw [abs_div, abs_of_nonpos (by linarith [h.1]), abs_of_pos (by linarith [h.1])]
  ring

theorem shift_zero (a n : ℕ) : a >>> n = 0 ↔ a < 2 ^ n := by
  rw [Nat.shiftRight_eq_div_pow, Nat.div_eq_zero_iff]
  have := Nat.two_pow_pos n
  omega

theorem rate_next {p : Pi} {k : ℕ} (h : Rate p k) : Rate p.iteration (k + 1) := by
  have hg := good_base h.good
  have hs := onSeries_base h.series
  have hm : p.baseIteration.multiplier = p.multiplier := rfl
  have hr : p.baseIteration.root = p.root := rfl
  have h8 : 2 ^ 3 ≤ 2 ^ p.multiplier := Nat.pow_le_pow_right (by norm_num) h.three
  have hl := h.least
  have hl4 := h.later
  have h3 := h.three
  unfold Pi.iteration
  dsimp only
  by_cases hc : p.baseIteration.accurate ≠ 0 ∧ (p.baseIteration.accurate - 8) >>> p.baseIteration.multiplier ≠ 0
  · rw [if_pos hc]
    have hc2 := hc.2
    rw [Ne, shift_zero, hs.accurate, hm, not_lt] at hc2
    have hmul : p.baseIteration.sqrtIteration.multiplier = p.multiplier + 1 := rfl
    have hroot : p.baseIteration.sqrtIteration.root = sqrtIteration p.root 640320 := rfl
    refine ⟨good_sqrt hg, onSeries_same hs _ _ _ _ rfl, ?_, ?_, Or.inr ?_, ?_, ?_⟩
    · rw [hmul]; omega
    · have hp : (0 : ℝ) < (p.root : ℝ) := by exact_mod_cast h.good.root_pos
      have hσ : (0 : ℝ) < √640320 := Real.sqrt_pos.mpr (by norm_num)
      have hq := newton_square hp hσ
      rw [Real.sq_sqrt (by norm_num)] at hq
      rw [hmul, hroot, sqrtIteration_cast, show ((640320 : ℚ) : ℝ) = 640320 by norm_num, hq, abs_pow, h.root,
        show p.multiplier + 1 - 3 = (p.multiplier - 3) + 1 by omega, pow_succ 2, pow_mul]
    · rw [hmul, Nat.add_sub_cancel]; omega
    · rw [hmul, pow_succ]
      omega
    · intro hk
      rw [hmul, pow_succ]
      by_cases h4 : 4 ≤ k
      · have := hl4 h4; omega
      · have : k = 3 := by omega
        subst this
        omega
  · rw [if_neg hc]
    have hc2 : 14 * (k + 1) < 2 ^ p.multiplier + 8 := by
      have ha : p.baseIteration.accurate ≠ 0 := by rw [hs.accurate]; omega
      have : (p.baseIteration.accurate - 8) >>> p.baseIteration.multiplier = 0 := by
        by_contra h; exact hc ⟨ha, h⟩
      rw [shift_zero, hs.accurate, hm] at this
      omega
    refine ⟨hg, hs, by rw [hm]; exact h3, by rw [hm, hr]; exact h.root, ?_, by rw [hm]; omega, fun _ => by rw [hm]; exact hc2⟩
    rw [hm]
    rcases h.most with h1 | h1
    · exact Or.inl h1
    · exact Or.inr (by omega)

theorem rate_all : ∀ k : ℕ, Rate (Pi.iteration^[k] {}) k
  | 0 => rate_start
  | k + 1 => by
    rw [Function.iterate_succ', Function.comp_apply]
    exact rate_next (rate_all k)

/-! ### The value -/

theorem root_distance {p : Pi} {k : ℕ} (h : Rate p k) :
    1600 * guess ^ 2 ^ (p.multiplier - 3) ≤ |(p.root : ℝ) - √640320| ∧
      |(p.root : ℝ) - √640320| ≤ 1601 * guess ^ 2 ^ (p.multiplier - 3) := by
  have h5 := abs_le.mp h.good.root_fifth
  have hb := root_bounds
  have hpos : 0 < (p.root : ℝ) + √640320 := by linarith [h5.1, hb.1]
  have e : |(p.root : ℝ) - √640320| = guess ^ 2 ^ (p.multiplier - 3) * ((p.root : ℝ) + √640320) := by
    rw [← h.root, abs_div, abs_of_pos hpos, div_mul_cancel₀ _ hpos.ne']
  have hg : 0 ≤ guess ^ 2 ^ (p.multiplier - 3) := by rw [← h.root]; exact abs_nonneg _
  rw [e]
  constructor
  · rw [mul_comm]; exact mul_le_mul_of_nonneg_left (by linarith [h5.1, hb.1]) hg
  · rw [mul_comm]; exact mul_le_mul_of_nonneg_right (by linarith [h5.2, hb.2]) hg

theorem value_least {p : Pi} {m : ℕ} (h : OnSeries p (m + 1)) {x : ℝ} (hx : IsChudnovsky x) :
    |(p.root : ℝ) - √640320| / 257 - chudnovskyTerm (m + 1) / 6 ≤ |((p.value : ℚ) : ℝ) - x| := by
  obtain ⟨S, hS, hp⟩ := hx
  have hSr := chud_S hS
  have hp' : x = √640320 / (12 * S) := by
    rw [one_div] at hp
    rw [← inv_inv x, hp, inv_div]
  have hR := chud_partial hS (m + 1) (by omega)
  have hE := chud_error hS (m + 1)
  have hT : chudnovskyTerm (m + 1) ≤ 0.1 := (chud_anti (by omega : 1 ≤ m + 1)).trans (by rw [chud_one]; norm_num)
  rw [value_cast h hS, hp']
  generalize ∑ k ∈ range (m + 1), (-1 : ℝ) ^ k * chudnovskyTerm k = R at *
  have hσ := root_bounds
  have e : (p.root : ℝ) / (12 * R) - √640320 / (12 * S) =
      ((p.root : ℝ) - √640320) / (12 * R) - (√640320 / (12 * R * S)) * (R - S) := by
    have : R ≠ 0 := by linarith
    have : S ≠ 0 := by linarith [hSr.1]
    field_simp
    ring
  rw [e]
  have h1 : |(p.root : ℝ) - √640320| / 257 ≤ |((p.root : ℝ) - √640320) / (12 * R)| := by
    rw [abs_div, abs_of_pos (by linarith : 0 < 12 * R)]
    refine div_le_div_of_nonneg_left (abs_nonneg _) (by linarith) ?_
    have := (abs_le.mp hE).2
    linarith [hSr.2]
  have h2 : |(√640320 / (12 * R * S)) * (R - S)| ≤ chudnovskyTerm (m + 1) / 6 := by
    have hc : √640320 / (12 * R * S) ≤ 1 / 6 := by
      rw [div_le_div_iff₀ (by nlinarith [hSr.1]) (by norm_num)]
      nlinarith [hSr.1, hσ.2]
    have hc0 : 0 ≤ √640320 / (12 * R * S) := by
      apply div_nonneg (Real.sqrt_nonneg _); nlinarith [hSr.1]
    rw [abs_mul, abs_of_nonneg hc0]
    have := mul_le_mul hc hE (abs_nonneg _) (by norm_num)
    linarith
  have h3 := abs_sub_abs_le_abs_sub (((p.root : ℝ) - √640320) / (12 * R)) ((√640320 / (12 * R * S)) * (R - S))
  linarith

/-- Ten thousandths, raised to a power. -/
theorem guess_least {n d : ℕ} (h : 4 * n ≤ d) : (1 : ℝ) / 10 ^ d ≤ guess ^ n := by
  have h1 : ((1 : ℝ) / 10 ^ 4) ^ n ≤ guess ^ n := pow_le_pow_left₀ (by norm_num) guess_bounds.1 n
  refine le_trans ?_ h1
  rw [div_pow, one_pow, ← pow_mul]
  exact div_le_div_of_nonneg_left (by norm_num) (by positivity) (pow_le_pow_right₀ (by norm_num) h)

theorem guess_most {n d : ℕ} (h : 4 * d ≤ 15 * n) : guess ^ n ≤ (1 : ℝ) / 10 ^ d := by
  have h0 : 0 ≤ guess := le_trans (by norm_num) guess_bounds.1
  have h1 : guess ^ n ≤ (1 / 8000 : ℝ) ^ n := pow_le_pow_left₀ h0 guess_bounds.2 n
  refine h1.trans ?_
  rw [div_pow, one_pow]
  refine div_le_div_of_nonneg_left (by norm_num) (by positivity) ?_
  refine le_of_pow_le_pow_left₀ (n := 4) (by norm_num) (by positivity) ?_
  rw [← pow_mul, ← pow_mul, mul_comm n 4, pow_mul 8000]
  calc (10 : ℝ) ^ (d * 4) ≤ 10 ^ (15 * n) := pow_le_pow_right₀ (by norm_num) (by omega)
    _ = (10 ^ 15) ^ n := pow_mul _ _ _
    _ ≤ (8000 ^ 4) ^ n := pow_le_pow_left₀ (by norm_num) (by norm_num) n

theorem eighth {m : ℕ} (h : 3 ≤ m) : 2 ^ m = 8 * 2 ^ (m - 3) := by
  obtain ⟨j, rfl⟩ : ∃ j, m = j + 3 := ⟨m - 3, by omega⟩
  rw [Nat.add_sub_cancel, pow_add]; ring

end ELC.Series
