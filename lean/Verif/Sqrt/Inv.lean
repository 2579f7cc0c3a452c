import Verif.Sqrt.Real
import Mathlib.Tactic.IntervalCases
/-! The quick inverse root. -/
namespace ELC.Sqrt

open ELC.Float ELC.Float.Spec

variable {I : Info} {f : Format} {v : Nat}

/-- What the three magic numbers have in common: the field `3·bias-1` and a fraction near 0.865. -/
structure Magic (f : Format) (magic : Nat) : Prop where
  field : magic / 2 ^ f.p = 3 * f.bias - 1
  low : 8648 * 2 ^ f.p ≤ 10000 * (magic % 2 ^ f.p)
  high : 10000 * (magic % 2 ^ f.p) ≤ 8655 * 2 ^ f.p
  fits : magic < 2 ^ f.width

/-- The cubic, in its three pieces. -/
theorem cubic0 {t z : ℝ} (ht : 1 ≤ t) (hz : 2 ≤ z) (h1 : (3.8647 : ℝ) ≤ t + z) (h2 : t + z ≤ 3.8655) : 7.44 ≤ t * z ^ 2 ∧ t * z ^ 2 ≤ 8.56 := by
  constructor
  · nlinarith [mul_nonneg (sub_nonneg.2 ht) (sub_nonneg.2 hz), mul_nonneg (mul_nonneg (sub_nonneg.2 ht) (sub_nonneg.2 hz)) (by linarith : (0 : ℝ) ≤ z)]
  · have h3 : 0 ≤ (z - 2 * t) ^ 2 * (4 * z + t) := by positivity
    have h4 : (t + z) ^ 3 ≤ 3.8655 ^ 3 := by gcongr
    nlinarith

theorem cubic1 {t z : ℝ} (ht : 1 ≤ t) (ht2 : t ≤ 2) (h1 : (4.8647 : ℝ) ≤ t + z) (h2 : t + z ≤ 4.8655) : 14.88 ≤ t * z ^ 2 ∧ t * z ^ 2 ≤ 17.12 := by
  have hz : 2.8 ≤ z := by linarith
  constructor
  · have : 0 ≤ (t - 1) * (2 - t) := mul_nonneg (sub_nonneg.2 ht) (sub_nonneg.2 ht2)
    have h3 : (4.8647 - t) ^ 2 ≤ z ^ 2 := by gcongr <;> linarith
    have h5 : t * (4.8647 - t) ^ 2 ≤ t * z ^ 2 := by gcongr
    have h6 : 0 ≤ (t - 1) * (2 - t) * (5 - t) := mul_nonneg this (by linarith)
    nlinarith
  · have h3 : 0 ≤ (z - 2 * t) ^ 2 * (4 * z + t) := by positivity
    have h4 : (t + z) ^ 3 ≤ 4.8655 ^ 3 := by gcongr
    nlinarith

theorem cubic2 {t z : ℝ} (ht : t ≤ 2) (hz : z ≤ 4) (h1 : (5.8647 : ℝ) ≤ t + z) (h2 : t + z ≤ 5.8655) : 29.76 ≤ t * z ^ 2 ∧ t * z ^ 2 ≤ 34.24 := by
  have h5 : 1.86 ≤ t := by linarith
  have h6 : 3.86 ≤ z := by linarith
  constructor
  · have h3 : (5.8647 - t) ^ 2 ≤ z ^ 2 := by gcongr <;> linarith
    have h7 : t * (5.8647 - t) ^ 2 ≤ t * z ^ 2 := by gcongr
    have h8 : 0 ≤ (t - 1.86) * (2 - t) := mul_nonneg (by linarith) (by linarith)
    have h9 : 0 ≤ (t - 1.86) * (2 - t) * (7 - t) := mul_nonneg h8 (by linarith)
    nlinarith
  · have h3 : z ^ 2 ≤ 4 ^ 2 := by gcongr
    nlinarith

/-- The same in whole units: `P+m` and `P+r` the two mantissas, `B` the fraction of the magic number. -/
theorem scaled {P m r B Q W : ℝ} {k : ℕ} (hP8 : 8388608 ≤ P) (hQ : 0 < Q) (hk2 : k ≤ 2)
    (hprodR : W * 2 ^ (k + 1) = (P + m) * (P + r) ^ 2 * Q ^ 3)
    (r1 : 2 * r + m ≤ k * P + B) (r2 : k * P + B ≤ 2 * r + m + 1) (r3 : 8648 * P ≤ 10000 * B) (r4 : 10000 * B ≤ 8655 * P)
    (r5 : m ≤ P) (r6 : r ≤ P) (r7 : 0 ≤ m) (r8 : 0 ≤ r) :
    0.93 * (P * Q) ^ 3 ≤ W ∧ W ≤ 1.07 * (P * Q) ^ 3 := by
  have hP0 : 0 < P := by linarith
  -- scaled
  obtain ⟨t, ht⟩ : ∃ t, P + m = t * P := ⟨(P + m) / P, by field_simp⟩
  obtain ⟨z, hz⟩ : ∃ z, 2 * (P + r) = z * P := ⟨2 * (P + r) / P, by field_simp⟩
  have t1 : 1 ≤ t := le_of_mul_le_mul_right (by linarith) hP0
  have t2 : t ≤ 2 := le_of_mul_le_mul_right (by linarith) hP0
  have z1 : 2 ≤ z := le_of_mul_le_mul_right (by linarith) hP0
  have z2 : z ≤ 4 := le_of_mul_le_mul_right (by linarith) hP0
  have s1 : (3.8647 + k : ℝ) ≤ t + z := by
    apply le_of_mul_le_mul_right _ hP0
    have : (t + z) * P = P + m + 2 * (P + r) := by rw [ht, hz]; ring
    rw [this, add_mul]
    linarith
  have s2 : t + z ≤ 3.8655 + k := by
    apply le_of_mul_le_mul_right _ hP0
    have : (t + z) * P = P + m + 2 * (P + r) := by rw [ht, hz]; ring
    rw [this, add_mul]
    linarith
  have hW : W * 2 ^ (k + 1) * 4 = t * z ^ 2 * (P * Q) ^ 3 := by
    rw [hprodR]
    have : (P + m) * (P + r) ^ 2 * Q ^ 3 * 4 = (P + m) * (2 * (P + r)) ^ 2 * Q ^ 3 := by ring
    rw [this, ht, hz]
    ring
  have hO : 0 < (P * Q) ^ 3 := by positivity
  have hbound : 0.93 * 2 ^ (k + 3) ≤ t * z ^ 2 ∧ t * z ^ 2 ≤ 1.07 * 2 ^ (k + 3) := by
    have hk' : k = 0 ∨ k = 1 ∨ k = 2 := by omega
    rcases hk' with rfl | rfl | rfl
    · have := cubic0 t1 z1 (by push_cast at s1; linarith) (by push_cast at s2; linarith)
      constructor <;> norm_num at this ⊢ <;> linarith
    · have := cubic1 (z := z) t1 t2 (by push_cast at s1; linarith) (by push_cast at s2; linarith)
      constructor <;> norm_num at this ⊢ <;> linarith
    · have := cubic2 t2 z2 (by push_cast at s1; linarith) (by push_cast at s2; linarith)
      constructor <;> norm_num at this ⊢ <;> linarith
  have hpk : (0 : ℝ) < 2 ^ (k + 3) := by positivity
  have e8 : W * 2 ^ (k + 3) = t * z ^ 2 * (P * Q) ^ 3 := by
    rw [← hW, show k + 3 = k + 1 + 2 by omega, pow_add 2 (k + 1) 2]; ring
  constructor
  · apply le_of_mul_le_mul_right _ hpk
    rw [e8]
    calc 0.93 * (P * Q) ^ 3 * 2 ^ (k + 3) = 0.93 * 2 ^ (k + 3) * (P * Q) ^ 3 := by ring
      _ ≤ _ := mul_le_mul_of_nonneg_right hbound.1 hO.le
  · apply le_of_mul_le_mul_right _ hpk
    rw [e8]
    calc t * z ^ 2 * (P * Q) ^ 3 ≤ 1.07 * 2 ^ (k + 3) * (P * Q) ^ 3 := mul_le_mul_of_nonneg_right hbound.2 hO.le
      _ = _ := by ring

/-- The guess: a finite normal number whose square, times the number, is near one. -/
theorem quick_inv {magic : Nat} (h : Agrees I f) (hm : Magic f magic) (hv : v < infinity I) (hn : 2 ^ f.p ≤ v) :
    2 ^ f.p ≤ quickInvsqrt I magic v ∧ quickInvsqrt I magic v < infinity I ∧
    (0.93 : ℝ) * one I ^ 3 ≤ units f.p v * (units f.p (quickInvsqrt I magic v) : ℝ) ^ 2 ∧
    units f.p v * (units f.p (quickInvsqrt I magic v) : ℝ) ^ 2 ≤ 1.07 * one I ^ 3 := by
  have hP := Nat.two_pow_pos f.p
  have hb := h.large.2
  have hE1 := one_le_div hn
  have hdv := Nat.div_add_mod v (2 ^ f.p)
  have hmv := Nat.mod_lt v hP
  have hdm := Nat.div_add_mod magic (2 ^ f.p)
  have hmm := Nat.mod_lt magic hP
  have hlow := hm.low
  have hhigh := hm.high
  have hE2 : v / 2 ^ f.p ≤ 2 * f.bias := by
    have : v / 2 ^ f.p < 2 * f.bias + 1 := by
      rw [Nat.div_lt_iff_lt_mul hP, ← infinity_val h]; exact hv
    omega
  rw [hm.field] at hdm
  have hle : v ≤ magic := by
    have h1 : 2 ^ f.p * (v / 2 ^ f.p + 1) ≤ 2 ^ f.p * (3 * f.bias - 1) := Nat.mul_le_mul_left _ (by omega)
    rw [Nat.mul_add, Nat.mul_one] at h1
    omega
  have hw := Nat.two_pow_pos f.width
  have hq : quickInvsqrt I magic v = (magic - v) / 2 := by
    unfold quickInvsqrt
    rw [h.width, Nat.shiftRight_eq_div_pow, pow_one, show magic + 2 ^ f.width - v = magic - v + 2 ^ f.width by omega, Nat.add_mod_right,
      Nat.mod_eq_of_lt (lt_of_le_of_lt (Nat.sub_le _ _) hm.fits)]
  generalize hy : quickInvsqrt I magic v = y at *
  have hdy := Nat.div_add_mod y (2 ^ f.p)
  have hmy := Nat.mod_lt y hP
  have hone : one I = 2 ^ f.p * 2 ^ (f.bias - 1) := by
    rw [one_eq h, ← pow_add]; unfold Kof; congr 1; omega
  -- the fields add up
  have hfield : ∃ k, k ≤ 2 ∧ 2 * (y / 2 ^ f.p) + v / 2 ^ f.p + k = 3 * f.bias - 1 ∧
      2 * (y % 2 ^ f.p) + v % 2 ^ f.p ≤ k * 2 ^ f.p + magic % 2 ^ f.p ∧
      k * 2 ^ f.p + magic % 2 ^ f.p ≤ 2 * (y % 2 ^ f.p) + v % 2 ^ f.p + 1 := by
    generalize v / 2 ^ f.p = E at *
    generalize v % 2 ^ f.p = m at *
    generalize y / 2 ^ f.p = G at *
    generalize y % 2 ^ f.p = r at *
    generalize magic % 2 ^ f.p = B at *
    generalize hA : 3 * f.bias - 1 = A at *
    generalize 2 ^ f.p = P at *
    have e1 : 2 * y ≤ magic - v ∧ magic - v ≤ 2 * y + 1 := by omega
    have e2 : 2 * (P * G + r) + (P * E + m) ≤ P * A + B := by omega
    have e3 : P * A + B ≤ 2 * (P * G + r) + (P * E + m) + 1 := by omega
    have l1 : 2 * G + E ≤ A := by
      by_contra hc
      have := Nat.mul_le_mul_left P (show A + 1 ≤ 2 * G + E by omega)
      have e : P * (2 * G + E) = 2 * (P * G) + P * E := by ring
      rw [e, Nat.mul_add, Nat.mul_one] at this
      omega
    obtain ⟨k, hk⟩ := Nat.exists_eq_add_of_le l1
    have e5 : P * A = 2 * (P * G) + P * E + k * P := by rw [hk]; ring
    refine ⟨k, ?_, by omega, by omega, by omega⟩
    by_contra hc
    have := Nat.mul_le_mul_right P (show 3 ≤ k by omega)
    omega
  obtain ⟨k, hk2, hk, hr1, hr2⟩ := hfield
  have hG : 1 ≤ y / 2 ^ f.p := by omega
  have hyn : 2 ^ f.p ≤ y := (Nat.one_le_div_iff hP).1 hG
  have hyi : y < infinity I := by
    rw [infinity_val h, ← Nat.div_lt_iff_lt_mul hP]
    omega
  refine ⟨hyn, hyi, ?_⟩
  -- in units
  have hprod : units f.p v * units f.p y ^ 2 * 2 ^ (k + 1) = (2 ^ f.p + v % 2 ^ f.p) * (2 ^ f.p + y % 2 ^ f.p) ^ 2 * (2 ^ (f.bias - 1)) ^ 3 := by
    rw [units_normal hn, units_normal hyn]
    unfold sp
    have e : 2 ^ (v / 2 ^ f.p - 1) * (2 ^ (y / 2 ^ f.p - 1)) ^ 2 * 2 ^ (k + 1) = (2 ^ (f.bias - 1)) ^ 3 := by
      rw [← pow_mul, ← pow_mul, ← pow_add, ← pow_add]
      congr 1
      omega
    rw [← e]
    ring
  have hprodR : (units f.p v : ℝ) * units f.p y ^ 2 * 2 ^ (k + 1) =
      (2 ^ f.p + (v % 2 ^ f.p : ℕ)) * (2 ^ f.p + (y % 2 ^ f.p : ℕ)) ^ 2 * ((2 : ℝ) ^ (f.bias - 1)) ^ 3 := by exact_mod_cast hprod
  have honeR : (one I : ℝ) = 2 ^ f.p * 2 ^ (f.bias - 1) := by exact_mod_cast hone
  rw [honeR]
  have hP8 : (8388608 : ℝ) ≤ 2 ^ f.p := by
    have h3 : 2 ^ 23 ≤ 2 ^ f.p := Nat.pow_le_pow_right (by decide) h.large.1
    have h4 : 2 ^ 23 = 8388608 := by norm_num
    rw [h4] at h3
    exact_mod_cast h3
  have r1 : 2 * ((y % 2 ^ f.p : ℕ) : ℝ) + (v % 2 ^ f.p : ℕ) ≤ k * 2 ^ f.p + (magic % 2 ^ f.p : ℕ) := by exact_mod_cast hr1
  have r2 : k * 2 ^ f.p + ((magic % 2 ^ f.p : ℕ) : ℝ) ≤ 2 * (y % 2 ^ f.p : ℕ) + (v % 2 ^ f.p : ℕ) + 1 := by exact_mod_cast hr2
  have r3 : (8648 : ℝ) * 2 ^ f.p ≤ 10000 * (magic % 2 ^ f.p : ℕ) := by exact_mod_cast hlow
  have r4 : (10000 : ℝ) * (magic % 2 ^ f.p : ℕ) ≤ 8655 * 2 ^ f.p := by exact_mod_cast hhigh
  have r5 : ((v % 2 ^ f.p : ℕ) : ℝ) ≤ 2 ^ f.p := by exact_mod_cast hmv.le
  have r6 : ((y % 2 ^ f.p : ℕ) : ℝ) ≤ 2 ^ f.p := by exact_mod_cast hmy.le
  have r7 : (0 : ℝ) ≤ (v % 2 ^ f.p : ℕ) := by positivity
  have r8 : (0 : ℝ) ≤ (y % 2 ^ f.p : ℕ) := by positivity
  generalize ((v % 2 ^ f.p : ℕ) : ℝ) = m at *
  generalize ((y % 2 ^ f.p : ℕ) : ℝ) = r at *
  generalize ((magic % 2 ^ f.p : ℕ) : ℝ) = B at *
  generalize (units f.p v : ℝ) * (units f.p y : ℝ) ^ 2 = W at *
  have hQ : (0 : ℝ) < 2 ^ (f.bias - 1) := by positivity
  generalize ((2 : ℝ) ^ (f.bias - 1)) = Q at *
  generalize (2 ^ f.p : ℝ) = P at *
  exact scaled hP8 hQ hk2 hprodR r1 r2 r3 r4 r5 r6 r7 r8

end ELC.Sqrt
