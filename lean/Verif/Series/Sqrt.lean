import Verif.Series.Spec
import Mathlib.Tactic.FieldSimp
import Mathlib.Tactic.Linarith
import Mathlib.Tactic.Positivity

namespace ELC.Series

theorem gives_unique {α : Type} {f : ℕ → Option α} {r s : α} (h : Gives f r) (h' : Gives f s) : r = s := by
  obtain ⟨n, hn⟩ := h
  obtain ⟨m, hm⟩ := h'
  have a := hn (max n m) (le_max_left _ _)
  have b := hm (max n m) (le_max_right _ _)
  rw [a] at b
  exact Option.some.inj b

theorem gives_of_mono {α : Type} {f : ℕ → Option α} {r : α} (mono : ∀ n r, f n = some r → f (n + 1) = some r)
    (n : ℕ) (h : f n = some r) : Gives f r := by
  refine ⟨n, fun m hm => ?_⟩
  induction m, hm using Nat.le_induction with
  | base => exact h
  | succ m _ ih => exact mono m r ih

theorem gives_map {α β : Type} {f : ℕ → Option α} {r : α} (g : α → β) (h : Gives f r) :
    Gives (fun n => (f n).map g) (g r) := by
  obtain ⟨n, hn⟩ := h
  exact ⟨n, fun m hm => by simp only [hn m hm, Option.map_some]⟩

/-! ### One Newton step -/

theorem sqrtIteration_cast (num v : ℚ) : ((sqrtIteration num v : ℚ) : ℝ) = ((num : ℝ) + v / num) / 2 := by
  unfold sqrtIteration; push_cast; ring

theorem step_error {a v : ℝ} (ha : 0 < a) (hv : 0 ≤ v) :
    (a + v / a) / 2 - √v = (a - √v) ^ 2 / (2 * a) := by
  have h : √v ^ 2 = v := Real.sq_sqrt hv
  rw [eq_div_iff (by positivity)]
  have : (a + v / a) / 2 * (2 * a) = a ^ 2 + v := by field_simp
  rw [sub_mul, this]
  nlinarith

theorem step_ge {a v : ℝ} (ha : 0 < a) (hv : 0 ≤ v) : √v ≤ (a + v / a) / 2 := by
  have h := step_error ha hv
  have : 0 ≤ (a - √v) ^ 2 / (2 * a) := by positivity
  linarith

theorem step_pos {a v : ℝ} (ha : 0 < a) (hv : 0 ≤ v) : 0 < (a + v / a) / 2 := by positivity

/-- Above the root the error is at least halved. -/
theorem step_half {a v : ℝ} (ha : 0 < a) (hv : 0 ≤ v) (h : √v ≤ a) : (a + v / a) / 2 - √v ≤ (a - √v) / 2 := by
  rw [step_error ha hv, div_le_div_iff₀ (by positivity) (by norm_num)]
  have hs := Real.sqrt_nonneg v
  nlinarith [mul_nonneg (sub_nonneg.mpr h) hs]

/-- The size of a step bounds the error after it. -/
theorem step_saver {a v : ℝ} (ha : 0 < a) (hv : 0 ≤ v) :
    |(a + v / a) / 2 - √v| ≤ |(a + v / a) / 2 - a| := by
  have h1 := step_ge ha hv
  rw [abs_of_nonneg (sub_nonneg.mpr h1)]
  by_cases h : √v ≤ a
  · have := step_half ha hv h
    have h2 : (a + v / a) / 2 ≤ a := by linarith
    rw [abs_of_nonpos (by linarith)]
    linarith
  · rw [abs_of_nonneg (by linarith)]
    linarith

/-! ### The loop -/

theorem sqrtToNewEps_mono (v ε : ℚ) : ∀ n num saver r, sqrtToNewEps v ε n num saver = some r →
    sqrtToNewEps v ε (n + 1) num saver = some r := by
  intro n
  induction n with
  | zero => intro num saver r h; cases h
  | succ n ih =>
    intro num saver r h
    rw [sqrtToNewEps] at h ⊢
    by_cases hs : saver > ε
    · rw [if_pos hs] at h ⊢
      exact ih _ _ _ h
    · rw [if_neg hs] at h ⊢
      exact h

/-- From above the root, with an error of at most `2^n ε`. -/
theorem sqrt_loop_above {v ε : ℚ} (hv : 0 ≤ v) : ∀ (n : ℕ) (num saver : ℚ), 0 < num → √(v : ℝ) ≤ num →
    (num : ℝ) - √(v : ℝ) ≤ 2 ^ n * (ε : ℝ) → |(num : ℝ) - √(v : ℝ)| ≤ (saver : ℝ) →
    ∃ r s : ℚ, sqrtToNewEps v ε (n + 2) num saver = some (r, s) ∧ √(v : ℝ) ≤ r ∧ 0 < r ∧ s ≤ ε ∧
      |(r : ℝ) - √(v : ℝ)| ≤ s := by
  intro n
  have hv' : (0 : ℝ) ≤ (v : ℝ) := by exact_mod_cast hv
  induction n with
  | zero =>
    intro num saver hp ha he hs
    have hp' : (0 : ℝ) < (num : ℝ) := by exact_mod_cast hp
    rw [sqrtToNewEps]
    by_cases hgt : saver > ε
    · rw [if_pos hgt]
      have h1 := step_ge hp' hv'
      have h2 := step_half hp' hv' ha
      have h3 := step_saver hp' hv'
      have h4 : |sqrtIteration num v - num| ≤ ε := by
        have : |((sqrtIteration num v : ℚ) : ℝ) - num| ≤ (ε : ℝ) := by
          rw [sqrtIteration_cast, abs_of_nonpos (by linarith)]
          linarith
        exact_mod_cast this
      refine ⟨sqrtIteration num v, |sqrtIteration num v - num|, ?_, ?_, ?_, h4, ?_⟩
      · simp only [sqrtToNewEps]
        rw [if_neg (not_lt.mpr h4)]
      · rw [sqrtIteration_cast]; exact h1
      · have := step_pos hp' hv'
        rw [← sqrtIteration_cast] at this
        exact_mod_cast this
      · push_cast
        rw [sqrtIteration_cast]; exact h3
    · rw [if_neg hgt]
      exact ⟨num, saver, rfl, ha, hp, not_lt.mp hgt, hs⟩
  | succ n ih =>
    intro num saver hp ha he hs
    have hp' : (0 : ℝ) < (num : ℝ) := by exact_mod_cast hp
    rw [sqrtToNewEps]
    by_cases hgt : saver > ε
    · rw [if_pos hgt]
      apply ih
      · have := step_pos hp' hv'
        rw [← sqrtIteration_cast] at this
        exact_mod_cast this
      · rw [sqrtIteration_cast]; exact step_ge hp' hv'
      · rw [sqrtIteration_cast]
        have := step_half hp' hv' ha
        have e : (2 : ℝ) ^ (n + 1) * ε = 2 * (2 ^ n * ε) := by ring
        linarith
      · push_cast
        rw [sqrtIteration_cast]; exact step_saver hp' hv'
    · rw [if_neg hgt]
      exact ⟨num, saver, rfl, ha, hp, not_lt.mp hgt, hs⟩

theorem exists_pow_ge (x : ℝ) {ε : ℚ} (hε : 0 < ε) : ∃ n : ℕ, x ≤ 2 ^ n * (ε : ℝ) := by
  have hε' : (0 : ℝ) < (ε : ℝ) := by exact_mod_cast hε
  obtain ⟨n, hn⟩ := pow_unbounded_of_one_lt (x / ε) (by norm_num : (1 : ℝ) < 2)
  refine ⟨n, ?_⟩
  rw [div_lt_iff₀ hε'] at hn
  exact hn.le

/-- From any positive number, when `ε_saver` does not hide an error. -/
theorem sqrt_loop {v ε : ℚ} (hv : 0 ≤ v) (hε : 0 < ε) (num saver : ℚ) (hp : 0 < num)
    (hs : saver ≤ ε → |(num : ℝ) - √(v : ℝ)| ≤ (saver : ℝ)) :
    ∃ (n : ℕ) (r s : ℚ), sqrtToNewEps v ε n num saver = some (r, s) ∧ 0 < r ∧ s ≤ ε ∧
      |(r : ℝ) - √(v : ℝ)| ≤ s ∧ (ε < saver → √(v : ℝ) ≤ r) := by
  have hv' : (0 : ℝ) ≤ (v : ℝ) := by exact_mod_cast hv
  have hp' : (0 : ℝ) < (num : ℝ) := by exact_mod_cast hp
  by_cases hgt : saver > ε
  · obtain ⟨n, hn⟩ := exists_pow_ge (((sqrtIteration num v : ℚ) : ℝ) - √(v : ℝ)) hε
    have hpos := step_pos hp' hv'
    rw [← sqrtIteration_cast] at hpos
    obtain ⟨r, s, h, h1, h2, h3, h4⟩ := sqrt_loop_above hv n (sqrtIteration num v) |sqrtIteration num v - num|
      (by exact_mod_cast hpos) (by rw [sqrtIteration_cast]; exact step_ge hp' hv') hn
      (by push_cast; rw [sqrtIteration_cast]; exact step_saver hp' hv')
    refine ⟨n + 2 + 1, r, s, ?_, h2, h3, h4, fun _ => h1⟩
    rw [sqrtToNewEps, if_pos hgt]
    exact h
  · exact ⟨1, num, saver, by rw [sqrtToNewEps, if_neg hgt], hp, not_lt.mp hgt, hs (not_lt.mp hgt), fun h => absurd h hgt⟩

end ELC.Series
