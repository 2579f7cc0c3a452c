import Verif.Trig.Model
import Verif.Series.Props
import Mathlib.Analysis.Real.Pi.Irrational
import Mathlib.Analysis.SpecialFunctions.Trigonometric.Bounds
/-! Helper lemmas. -/
namespace ELC.Trig
open ELC.Series

/-- The error of a quotient. -/
theorem quot_err {s c S C es ec : ℝ} (hs : |s - S| ≤ es) (hc : |c - C| ≤ ec) (hC : C ≠ 0) (hec : 2 * ec ≤ |C|)
    (hS : |S| ≤ 1) (hC1 : |C| ≤ 1) : c ≠ 0 ∧ |s / c - S / C| ≤ 2 * (es + ec) / C ^ 2 := by
  have hCpos : 0 < |C| := abs_pos.mpr hC
  have hcl : |C| / 2 ≤ |c| := by
    have h1 := abs_sub_abs_le_abs_sub C c
    rw [abs_sub_comm C c] at h1
    linarith
  have hc0 : 0 < |c| := by linarith
  have hcne : c ≠ 0 := abs_pos.mp hc0
  refine ⟨hcne, ?_⟩
  have e : s / c - S / C = ((s - S) * C - S * (c - C)) / (c * C) := by
    field_simp
    ring
  have hes : 0 ≤ es := (abs_nonneg _).trans hs
  have hec0 : 0 ≤ ec := (abs_nonneg _).trans hc
  have hnum : |(s - S) * C - S * (c - C)| ≤ es + ec := by
    refine (abs_sub _ _).trans ?_
    rw [abs_mul, abs_mul]
    have h1 : |s - S| * |C| ≤ es * 1 := mul_le_mul hs hC1 (abs_nonneg _) hes
    have h2 : |S| * |c - C| ≤ 1 * ec := mul_le_mul hS hc (abs_nonneg _) (by norm_num)
    linarith
  rw [e, abs_div, abs_mul, ← sq_abs C, div_le_div_iff₀ (mul_pos hc0 hCpos) (by positivity)]
  have h3 : |(s - S) * C - S * (c - C)| * |C| ^ 2 ≤ (es + ec) * |C| ^ 2 :=
    mul_le_mul_of_nonneg_right hnum (by positivity)
  have h4 : |C| ^ 2 ≤ 2 * (|c| * |C|) := by nlinarith
  have h5 : (es + ec) * |C| ^ 2 ≤ (es + ec) * (2 * (|c| * |C|)) := mul_le_mul_of_nonneg_left h4 (by linarith)
  linarith

theorem gives_map {α β : Type} {f : ℕ → Option α} {a : α} (h : Gives f a) (g : α → β) :
    Gives (fun n => (f n).map g) (g a) := by
  obtain ⟨n, h⟩ := h
  exact ⟨n, fun m hm => by simp only [h m hm, Option.map_some]⟩

theorem gives_two {α β γ : Type} {f : ℕ → Option α} {g : ℕ → Option β} {a : α} {b : β} (h1 : Gives f a) (h2 : Gives g b)
    (k : α → β → γ) : Gives (fun n => (f n).bind fun x => (g n).map fun y => k x y) (k a b) := by
  obtain ⟨n, h1⟩ := h1
  obtain ⟨m, h2⟩ := h2
  exact ⟨max n m, fun l hl => by
    simp only [h1 l (by omega), h2 l (by omega), Option.bind_some, Option.map_some]⟩

theorem cos_rat_ne (q : ℚ) : Real.cos q ≠ 0 := by
  intro h
  obtain ⟨k, hk⟩ := Real.cos_eq_zero_iff.mp h
  have h2 : (2 * (k : ℝ) + 1) ≠ 0 := by
    intro h0
    have : (2 * k + 1 : ℤ) = 0 := by exact_mod_cast h0
    omega
  apply irrational_pi
  refine ⟨2 * q / (2 * k + 1), ?_⟩
  push_cast
  rw [hk]
  field_simp

theorem sin_rat_ne {q : ℚ} (hq : q ≠ 0) : Real.sin q ≠ 0 := by
  intro h
  obtain ⟨k, hk⟩ := Real.sin_eq_zero_iff.mp h
  have h2 : (k : ℝ) ≠ 0 := by
    rintro h0
    rw [h0, zero_mul] at hk
    exact hq (by exact_mod_cast hk.symm)
  apply irrational_pi
  refine ⟨q / k, ?_⟩
  push_cast
  rw [← hk]
  field_simp

theorem sin_zero_gives {ε : ℚ} (hε : 0 ≤ ε) : Gives (sin 0 ε) 0 := by
  refine ⟨1, fun m hm => ?_⟩
  obtain ⟨k, rfl⟩ : ∃ k, m = k + 1 := ⟨m - 1, by omega⟩
  rw [sin, sinLoop, abs_zero, if_neg (by linarith)]

end ELC.Trig
