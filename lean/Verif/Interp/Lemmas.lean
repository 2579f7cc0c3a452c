import Verif.Interp.Model
import Verif.Interp.Spec
import Verif.Native.Props
/-! Helper lemmas for characters at fractional positions. -/
namespace ELC.Interp
open ELC.Interp.Spec
open ELC.Convert (NType)

theorem lower_eq {x : ℚ} {i : Nat} (h0 : (i : ℚ) ≤ x) (h1 : x < i + 1) (hi : i < 2 ^ 64) : lower x = some i := by
  unfold lower
  have hf : ⌊x⌋ = (i : Int) := by
    rw [Int.floor_eq_iff]
    exact ⟨by exact_mod_cast h0, by exact_mod_cast h1⟩
  have hb : ¬ (x ≤ -1 ∨ 2 ^ 64 ≤ x) := by
    push Not
    constructor
    · have : (0 : ℚ) ≤ i := by positivity
      linarith
    · have : ((i : ℚ) + 1) ≤ 2 ^ 64 := by exact_mod_cast hi
      linarith
  rw [if_neg hb, hf]
  rfl

theorem slope_small {T : NType} {s : List Nat} (h : Small T s) {y1 y2 : Nat} (h1 : y1 ∈ s) (h2 : y2 ∈ s) :
    slope T y1 y2 = some ((y2 : Int) - y1) := by
  unfold slope
  apply Native.sub_partial h.1
  · have := h.2.2 _ h2
    exact ⟨by omega, by exact_mod_cast this⟩
  · have := h.2.2 _ h1
    exact ⟨by omega, by exact_mod_cast this⟩

theorem small_lt {T : NType} {s : List Nat} (h : Small T s) {y : Nat} (hy : y ∈ s) : y < 2 ^ 31 :=
  Nat.lt_of_lt_of_le (h.2.2 _ hy) (Nat.pow_le_pow_right (by decide) (by have := h.2.1; omega))

theorem rnd_int {rnd : ℚ → ℚ} (hr : IsRounding rnd) {n : Int} (h : |n| ≤ 2 ^ 53) : rnd n = n := by
  have := hr.exact n 0 h (by decide)
  simpa using this

/-- Products of an integer with a short number are exact. -/
theorem rnd_short {rnd : ℚ → ℚ} (hr : IsRounding rnd) {q : ℚ} (hs : Short q) (hb : |q| ≤ 2 ^ 33) : rnd q = q := by
  obtain ⟨n, rfl⟩ := hs
  apply hr.exact n 20 _ (by decide)
  rw [abs_div, abs_of_pos (show (0 : ℚ) < 2 ^ 20 by positivity), div_le_iff₀ (by positivity)] at hb
  have : |n| ≤ 2 ^ 33 * 2 ^ 20 := by exact_mod_cast hb
  omega

theorem short_int (n : Int) : Short n := ⟨n * 2 ^ 20, by norm_num⟩
theorem _root_.ELC.Interp.Spec.Short.mul_int {q : ℚ} (h : Short q) (k : Int) : Short (k * q) := by
  obtain ⟨n, rfl⟩ := h
  exact ⟨k * n, by push_cast; ring⟩
theorem _root_.ELC.Interp.Spec.Short.add {q r : ℚ} (h : Short q) (h' : Short r) : Short (q + r) := by
  obtain ⟨n, rfl⟩ := h
  obtain ⟨m, rfl⟩ := h'
  exact ⟨n + m, by push_cast; ring⟩
theorem _root_.ELC.Interp.Spec.Short.sub {q r : ℚ} (h : Short q) (h' : Short r) : Short (q - r) := by
  obtain ⟨n, rfl⟩ := h
  obtain ⟨m, rfl⟩ := h'
  exact ⟨n - m, by push_cast; ring⟩

theorem mul_bound {k d : ℚ} {B : ℚ} (hk : |k| ≤ B) (hd : |d| ≤ 1) : |k * d| ≤ B := by
  rw [abs_mul]
  calc |k| * |d| ≤ |k| * 1 := mul_le_mul_of_nonneg_left hd (abs_nonneg _)
    _ ≤ B := by rw [mul_one]; exact hk

theorem result_exact {rnd : ℚ → ℚ} (hr : IsRounding rnd) {y1 y2 : Nat} (b1 : y1 < 2 ^ 32) (b2 : y2 < 2 ^ 32) {d : ℚ} (hd : Short d)
    (d0 : 0 ≤ d) (d1 : d ≤ 1) : result rnd y1 ((y2 : Int) - y1) d = line y1 y2 d := by
  unfold result line
  have q1 : (y1 : ℚ) < 2 ^ 32 := by exact_mod_cast b1
  have q2 : (y2 : ℚ) < 2 ^ 32 := by exact_mod_cast b2
  have n1 : (0 : ℚ) ≤ y1 := by positivity
  have n2 : (0 : ℚ) ≤ y2 := by positivity
  have hk : |(((y2 : Int) - y1 : Int) : ℚ)| ≤ 2 ^ 32 := by
    rw [abs_le]; push_cast; constructor <;> linarith
  have hkd := mul_bound hk (show |d| ≤ 1 by rw [abs_of_nonneg d0]; exact d1)
  rw [rnd_short hr (hd.mul_int _) (hkd.trans (by norm_num))]
  have e : (y1 : ℚ) + (((y2 : Int) - y1 : Int) : ℚ) * d = (1 - d) * y1 + d * y2 := by push_cast; ring
  rw [e]
  apply rnd_short hr
  · rw [← e]
    exact (by simpa using short_int (y1 : Int) : Short (y1 : ℚ)).add (hd.mul_int _)
  · rw [← e]
    refine (abs_add_le _ _).trans ?_
    rw [abs_of_nonneg n1]
    linarith

theorem toChar_spec {T : NType} {v : ℚ} (h0 : 0 ≤ v) (h1 : v < 2 ^ T.bits) :
    ∃ z, toChar T v = some z ∧ (z : ℚ) ≤ v ∧ v < z + 1 := by
  unfold toChar
  rw [if_neg (by push Not; exact ⟨by linarith, h1⟩)]
  refine ⟨_, rfl, ?_⟩
  have hf : 0 ≤ ⌊v⌋ := Int.floor_nonneg.2 h0
  have e : (⌊v⌋.toNat : Int) = ⌊v⌋ := Int.toNat_of_nonneg hf
  have e' : ((⌊v⌋.toNat : Nat) : ℚ) = (⌊v⌋ : Int) := by
    rw [← e]
    exact (Int.cast_natCast _).symm
  rw [e']
  exact ⟨Int.floor_le v, Int.lt_floor_add_one v⟩

theorem reverse_exact {rnd : ℚ → ℚ} (hr : IsRounding rnd) {k : Int} (hk : |k| ≤ 2 ^ 31) {d a : ℚ} (hd : Short d) (hd1 : |d| ≤ 1)
    (ha : Short a) (ha1 : |a| ≤ 2 ^ 32) : reverse rnd k d a = a - k * d := by
  unfold reverse
  have hk' : |(k : ℚ)| ≤ 2 ^ 31 := by exact_mod_cast hk
  have hb := mul_bound hk' hd1
  rw [rnd_short hr (hd.mul_int _) (hb.trans (by norm_num))]
  apply rnd_short hr (ha.sub (hd.mul_int _))
  refine (abs_sub _ _).trans ?_
  linarith

end ELC.Interp
