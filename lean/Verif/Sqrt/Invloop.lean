import Verif.Sqrt.Inv
import Mathlib.Tactic.Positivity
/-! The loop of the inverse root: each step squares the relative error, up to rounding. -/
namespace ELC.Sqrt

open ELC.Float ELC.Float.Spec

variable {I : Info} {f : Format} {v : Nat}

/-! ### Rounding, relative -/

theorem magR (h : Agrees I f) {d : Nat} (hd : d ≤ infinity I) : (magnitude f d : ℝ) * one I = units f.p d := by
  exact_mod_cast mag_eq h hd

/-- A result of rounding that is normal is near what was rounded. -/
theorem nearest_rel (h : Agrees I f) {x y : Nat} (hy : 0 < y) (hr : nearest I x y < infinity I) (hn : 2 ^ f.p ≤ nearest I x y) :
    |(y : ℝ) * units f.p (nearest I x y) - x| * (2 * 2 ^ f.p) ≤ y * units f.p (nearest I x y) := by
  obtain ⟨h1, _, h3⟩ := nearest_mid h hy hr
  generalize nearest I x y = r at *
  have hpp := Nat.two_pow_pos f.p
  obtain ⟨c, rfl⟩ : ∃ c, r = c + 1 := ⟨r - 1, by omega⟩
  obtain ⟨h2, _⟩ := h3 c rfl
  have hs := sp_le_units hn
  have hu := units_sp f.p (c + 1)
  have hu2 := units_sp f.p c
  have hm := sp_mono (p := f.p) (show c ≤ c + 1 by omega)
  rw [hu] at h1
  have g1 : 2 * (x : ℝ) ≤ y * (units f.p (c + 1) + (units f.p (c + 1) + sp f.p (c + 1))) := by exact_mod_cast h1
  have g2 : (y : ℝ) * (units f.p c + units f.p (c + 1)) ≤ 2 * x := by exact_mod_cast h2
  have g3 : (units f.p (c + 1) : ℝ) = units f.p c + sp f.p c := by exact_mod_cast hu2
  have g4 : (sp f.p c : ℝ) ≤ sp f.p (c + 1) := by exact_mod_cast hm
  have g5 : (2 ^ f.p : ℝ) * sp f.p (c + 1) ≤ units f.p (c + 1) := by exact_mod_cast hs
  have g6 : (0 : ℝ) < y := by exact_mod_cast hy
  have g7 : (0 : ℝ) < 2 ^ f.p := by positivity
  have e : (units f.p c : ℝ) = units f.p (c + 1) - sp f.p c := by linarith
  rw [e] at g2
  generalize (units f.p (c + 1) : ℝ) = U at *
  generalize (sp f.p (c + 1) : ℝ) = t at *
  generalize (sp f.p c : ℝ) = t' at *
  generalize (2 ^ f.p : ℝ) = P at *
  have k0 : (y : ℝ) * t' ≤ y * t := mul_le_mul_of_nonneg_left g4 g6.le
  have k1 : |(y : ℝ) * U - x| ≤ y * t / 2 := by
    rw [abs_le]; constructor <;> linarith
  calc |(y : ℝ) * U - x| * (2 * P) ≤ y * t / 2 * (2 * P) := mul_le_mul_of_nonneg_right k1 (by positivity)
    _ = y * (P * t) := by ring
    _ ≤ _ := mul_le_mul_of_nonneg_left g5 g6.le

/-- The least normal number and half the bound of the finite ones, in units. -/
theorem range_units (h : Agrees I f) : units f.p (2 ^ f.p) = 2 ^ f.p ∧ 2 ^ f.bias * one I ≤ units f.p (infinity I - 1) ∧ 2 ^ f.p < infinity I ∧
    one I * 2 = 2 ^ f.p * 2 ^ f.bias := by
  have hpp := Nat.two_pow_pos f.p
  have hi := infinity_val h
  have hb := h.large.2
  have h1 : units f.p (2 ^ f.p) = 2 ^ f.p := by
    unfold units
    rw [Nat.div_self hpp, Nat.mod_self, if_neg (by omega)]
    simp
  have h2 : 2 * 2 ^ f.p ≤ infinity I := by rw [hi]; exact Nat.mul_le_mul_right _ (by omega)
  refine ⟨h1, ?_, by omega, ?_⟩
  · have h3 : units f.p (infinity I - 2 ^ f.p) ≤ units f.p (infinity I - 1) := units_le (by omega)
    have h4 := units_double (p := f.p) (x := infinity I - 2 ^ f.p) (by omega)
    rw [Nat.sub_add_cancel (by omega), units_infinity h, pow_succ] at h4
    have : 2 * (2 ^ f.bias * one I) = 2 * units f.p (infinity I - 2 ^ f.p) := by rw [← h4]; ring
    omega
  · rw [one_eq h, ← pow_succ, ← pow_add]
    congr 1
    unfold Kof
    have := h.biasPos
    have := h.large.1
    omega

/-- Rounding a value in the middle range: the result is normal, finite and near. -/
theorem round_rel (h : Agrees I f) {x y : Nat} (hy : 0 < y) {q : ℝ} (hq : q * ((y : ℝ) * one I) = x) (h1 : 2 / 2 ^ f.bias ≤ q)
    (h2 : q ≤ 2 ^ f.bias) :
    2 ^ f.p ≤ nearest I x y ∧ nearest I x y < infinity I ∧
      |(magnitude f (nearest I x y) : ℝ) - q| ≤ 0.51 / 2 ^ f.p * q := by
  obtain ⟨u1, u2, u3, u4⟩ := range_units h
  have hyR : (0 : ℝ) < y := by exact_mod_cast hy
  have hO : (0 : ℝ) < one I := by exact_mod_cast one_pos h
  have hB : (0 : ℝ) < 2 ^ f.bias := by positivity
  have hPp : (0 : ℝ) < 2 ^ f.p := by positivity
  have u4R : (one I : ℝ) * 2 = 2 ^ f.p * 2 ^ f.bias := by exact_mod_cast u4
  have u2R : (2 ^ f.bias : ℝ) * one I ≤ units f.p (infinity I - 1) := by exact_mod_cast u2
  have hge : 2 ^ f.p ≤ nearest I x y := by
    apply nearest_ge h hy _ u3.le
    rw [u1]
    have : (y : ℝ) * 2 ^ f.p ≤ x := by
      rw [← hq]
      have : (2 : ℝ) ^ f.p = 2 / 2 ^ f.bias * one I := by field_simp; linarith
      rw [this]
      calc (y : ℝ) * (2 / 2 ^ f.bias * one I) = 2 / 2 ^ f.bias * (y * one I) := by ring
        _ ≤ _ := mul_le_mul_of_nonneg_right h1 (by positivity)
    exact_mod_cast this
  have hpp := Nat.two_pow_pos f.p
  have hle : nearest I x y ≤ infinity I - 1 := by
    apply nearest_le h hy
    have : (x : ℝ) ≤ y * units f.p (infinity I - 1) := by
      rw [← hq]
      calc q * ((y : ℝ) * one I) ≤ 2 ^ f.bias * (y * one I) := mul_le_mul_of_nonneg_right h2 (by positivity)
        _ = y * (2 ^ f.bias * one I) := by ring
        _ ≤ _ := mul_le_mul_of_nonneg_left u2R hyR.le
    exact_mod_cast this
  have hlt : nearest I x y < infinity I := by omega
  refine ⟨hge, hlt, ?_⟩
  have hrel := nearest_rel h hy hlt hge
  have hm := magR h hlt.le
  rw [← hm, ← hq] at hrel
  generalize (magnitude f (nearest I x y) : ℝ) = m at *
  have hyo : 0 < (y : ℝ) * one I := by positivity
  have e1 : (y : ℝ) * (m * one I) - q * (y * one I) = (m - q) * (y * one I) := by ring
  rw [e1, abs_mul, abs_of_pos hyo] at hrel
  have hrel2 : |m - q| * (2 * 2 ^ f.p) ≤ m := by
    apply le_of_mul_le_mul_right _ hyo
    linarith
  have hP8 : (8388608 : ℝ) ≤ 2 ^ f.p := by
    have h3 : 2 ^ 23 ≤ 2 ^ f.p := Nat.pow_le_pow_right (by decide) h.large.1
    have h4 : 2 ^ 23 = 8388608 := by norm_num
    rw [h4] at h3
    exact_mod_cast h3
  have hq0 : 0 < q := lt_of_lt_of_le (by positivity) h1
  rw [div_mul_eq_mul_div, le_div_iff₀ hPp]
  have h5 := abs_le.1 (le_refl |m - q|)
  have h6 : m ≤ q + |m - q| := by linarith
  have h7 : 0 ≤ |m - q| := abs_nonneg _
  nlinarith

theorem fmul_rel (h : Agrees I f) {a b : Nat} (ha : a ≤ infinity I) (hb : b ≤ infinity I)
    (h1 : 2 / 2 ^ f.bias ≤ (magnitude f a : ℝ) * magnitude f b) (h2 : (magnitude f a : ℝ) * magnitude f b ≤ 2 ^ f.bias) :
    2 ^ f.p ≤ fmul I a b ∧ fmul I a b < infinity I ∧
      |(magnitude f (fmul I a b) : ℝ) - magnitude f a * magnitude f b| ≤ 0.51 / 2 ^ f.p * (magnitude f a * magnitude f b) := by
  unfold fmul
  rw [h.bit]
  refine round_rel h (one_pos h) ?_ h1 h2
  push_cast
  rw [← magR h ha, ← magR h hb]
  ring

theorem fdiv_rel (h : Agrees I f) {a b : Nat} (ha : a ≤ infinity I) (hb : b ≤ infinity I) (hb0 : 0 < units f.p b)
    (h1 : 2 / 2 ^ f.bias ≤ (magnitude f a : ℝ) / magnitude f b) (h2 : (magnitude f a : ℝ) / magnitude f b ≤ 2 ^ f.bias) :
    2 ^ f.p ≤ fdiv I a b ∧ fdiv I a b < infinity I ∧
      |(magnitude f (fdiv I a b) : ℝ) - magnitude f a / magnitude f b| ≤ 0.51 / 2 ^ f.p * (magnitude f a / magnitude f b) := by
  unfold fdiv
  rw [h.bit]
  refine round_rel h hb0 ?_ h1 h2
  have hO : (0 : ℝ) < one I := by exact_mod_cast one_pos h
  have hb1 : (0 : ℝ) < units f.p b := by exact_mod_cast hb0
  have hb2 : (magnitude f b : ℝ) ≠ 0 := by
    intro hc
    have := magR h hb
    rw [hc, zero_mul] at this
    linarith
  push_cast
  rw [← magR h ha, ← magR h hb]
  field_simp

theorem fdist_rel (h : Agrees I f) {a b : Nat} (ha : a ≤ infinity I) (hb : b ≤ a)
    (h1 : 2 / 2 ^ f.bias ≤ (magnitude f a : ℝ) - magnitude f b) (h2 : (magnitude f a : ℝ) - magnitude f b ≤ 2 ^ f.bias) :
    2 ^ f.p ≤ fdist I a b ∧ fdist I a b < infinity I ∧
      |(magnitude f (fdist I a b) : ℝ) - (magnitude f a - magnitude f b)| ≤ 0.51 / 2 ^ f.p * (magnitude f a - magnitude f b) := by
  unfold fdist
  rw [h.bit]
  have hu := units_le (p := f.p) hb
  refine round_rel h Nat.one_pos ?_ h1 h2
  rw [Nat.sub_eq_zero_of_le hu, Nat.add_zero, Nat.cast_sub hu, ← magR h ha, ← magR h (le_trans hb ha)]
  push_cast
  ring

/-! ### One step, in real numbers -/

/-- The relative error after a step: squared, plus a few roundings. -/
theorem step_error {w x m t q r e δ : ℝ} (he0 : 0 < e) (he : e ≤ 1 / 8388608) (hδ : δ ≤ 0.04) (hw : |w - 1| ≤ δ)
    (hm : |m - w| ≤ 0.51 * e * w) (hx : |x - m * w| ≤ 0.51 * e * (m * w)) (ht : |t - (3 - x)| ≤ 0.51 * e * (3 - x))
    (hq : |q - w * t| ≤ 0.51 * e * (w * t)) (hr : |r - q / 2| ≤ 0.51 * e * (q / 2)) :
    |r - 1| ≤ 1.6 * δ ^ 2 + 2.4 * e := by
  obtain ⟨w1, w2⟩ := abs_le.1 hw
  obtain ⟨m1, m2⟩ := abs_le.1 hm
  obtain ⟨x1, x2⟩ := abs_le.1 hx
  obtain ⟨t1, t2⟩ := abs_le.1 ht
  obtain ⟨q1, q2⟩ := abs_le.1 hq
  obtain ⟨r1, r2⟩ := abs_le.1 hr
  have a1 : 0.96 ≤ w := by linarith
  have a2 : w ≤ 1.04 := by linarith
  have b1 : w ^ 2 ≤ 1.0816 := by
    have : w * w ≤ 1.04 * 1.04 := mul_self_le_mul_self (by linarith) a2
    rw [sq]; linarith
  have b2 : 0.9216 ≤ w ^ 2 := by
    have : 0.96 * 0.96 ≤ w * w := mul_self_le_mul_self (by norm_num) a1
    rw [sq]; linarith
  have c1 : m * w - w ^ 2 ≤ 0.552 * e := by
    have : (m - w) * w ≤ 0.51 * e * w * w := mul_le_mul_of_nonneg_right m2 (by linarith)
    have := mul_le_mul_of_nonneg_left b1 he0.le
    linarith
  have c2 : -(0.552 * e) ≤ m * w - w ^ 2 := by
    have : -(0.51 * e * w) * w ≤ (m - w) * w := mul_le_mul_of_nonneg_right m1 (by linarith)
    have := mul_le_mul_of_nonneg_left b1 he0.le
    linarith
  have c3 : m * w ≤ 1.082 := by linarith
  have c4 : 0.51 * e * (m * w) ≤ 0.552 * e := by
    have := mul_le_mul_of_nonneg_left c3 he0.le
    linarith
  have d1 : x - w ^ 2 ≤ 1.104 * e := by linarith
  have d2 : -(1.104 * e) ≤ x - w ^ 2 := by linarith
  have d3 : 3 - x ≤ 2.079 := by linarith
  have d4 : 0.51 * e * (3 - x) ≤ 1.061 * e := by
    have := mul_le_mul_of_nonneg_left d3 he0.le
    linarith
  have e1 : t - (3 - w ^ 2) ≤ 2.165 * e := by linarith
  have e2 : -(2.165 * e) ≤ t - (3 - w ^ 2) := by linarith
  have f1 : w * t - w * (3 - w ^ 2) ≤ 2.252 * e := by
    have : w * (t - (3 - w ^ 2)) ≤ w * (2.165 * e) := mul_le_mul_of_nonneg_left e1 (by linarith)
    have := mul_le_mul_of_nonneg_left a2 he0.le
    linarith
  have f2 : -(2.252 * e) ≤ w * t - w * (3 - w ^ 2) := by
    have : w * -(2.165 * e) ≤ w * (t - (3 - w ^ 2)) := mul_le_mul_of_nonneg_left e2 (by linarith)
    have := mul_le_mul_of_nonneg_left a2 he0.le
    linarith
  have key : w * (3 - w ^ 2) = 2 - (w - 1) ^ 2 * (w + 2) := by ring
  have k0 : (w - 1) ^ 2 ≤ δ ^ 2 := sq_le_sq' w1 w2
  have k1 : 0 ≤ (w - 1) ^ 2 * (w + 2) := mul_nonneg (sq_nonneg _) (by linarith)
  have k2 : (w - 1) ^ 2 * (w + 2) ≤ 3.2 * δ ^ 2 := by
    have := mul_le_mul_of_nonneg_left (show w + 2 ≤ 3.2 by linarith) (sq_nonneg (w - 1))
    linarith
  rw [key] at f1 f2
  generalize (w - 1) ^ 2 * (w + 2) = K at *
  have g0 : w * t ≤ 2.01 := by linarith
  have g1 : 0.51 * e * (w * t) ≤ 1.026 * e := by
    have := mul_le_mul_of_nonneg_left g0 he0.le
    linarith
  have g2 : q ≤ 2.02 := by linarith
  have g3 : 0.51 * e * (q / 2) ≤ 0.516 * e := by
    have := mul_le_mul_of_nonneg_left g2 he0.le
    linarith
  rw [abs_le]
  constructor <;> linarith

end ELC.Sqrt
