import Verif.Sqrt.Invloop
/-! A step of the inverse root, on the bytes. -/
namespace ELC.Sqrt

open ELC.Float ELC.Float.Spec

variable {I : Info} {f : Format} {v : Nat}

theorem big_bias (h : Agrees I f) : (1024 : ℝ) ≤ 2 ^ f.bias := by
  have h1 : 2 ^ 10 ≤ 2 ^ f.bias := Nat.pow_le_pow_right (by decide) (by have := h.large.2; omega)
  have h2 : 2 ^ 10 = 1024 := by norm_num
  rw [h2] at h1
  exact_mod_cast h1

theorem big_p (h : Agrees I f) : (8388608 : ℝ) ≤ 2 ^ f.p := by
  have h3 : 2 ^ 23 ≤ 2 ^ f.p := Nat.pow_le_pow_right (by decide) h.large.1
  have h4 : 2 ^ 23 = 8388608 := by norm_num
  rw [h4] at h3
  exact_mod_cast h3

/-- The range of the normal numbers, and of their roots. -/
theorem normal_range (h : Agrees I f) (hv : v < infinity I) (hn : 2 ^ f.p ≤ v) :
    2 / 2 ^ f.bias ≤ (magnitude f v : ℝ) ∧ (magnitude f v : ℝ) ≤ 2 * 2 ^ f.bias := by
  obtain ⟨u1, _, u3, u4⟩ := range_units h
  have hO : (0 : ℝ) < one I := by exact_mod_cast one_pos h
  have hB := big_bias h
  have hm := magR h hv.le
  have u4R : (one I : ℝ) * 2 = 2 ^ f.p * 2 ^ f.bias := by exact_mod_cast u4
  constructor
  · have h1 := units_le (p := f.p) hn
    rw [u1] at h1
    have h2 : (2 ^ f.p : ℝ) ≤ units f.p v := by exact_mod_cast h1
    rw [← hm] at h2
    rw [div_le_iff₀ (by linarith)]
    apply le_of_mul_le_mul_right _ hO
    have h3 := mul_le_mul_of_nonneg_right h2 (show (0 : ℝ) ≤ 2 ^ f.bias by linarith)
    linarith
  · have h1 := units_le (p := f.p) hv.le
    rw [units_infinity h, pow_succ] at h1
    have h2 : (units f.p v : ℝ) ≤ 2 ^ f.bias * 2 * one I := by exact_mod_cast h1
    rw [← hm] at h2
    have := le_of_mul_le_mul_right h2 hO
    linarith

theorem root_range {a s B : ℝ} (hB : 1024 ≤ B) (hs : 0 < s) (he : s * s = a) (h1 : 2 / B ≤ a) (h2 : a ≤ 2 * B) : 8 / B ≤ s ∧ s ≤ B / 8 := by
  have hB0 : 0 < B := by linarith
  constructor
  · rw [div_le_iff₀ hB0]
    rw [div_le_iff₀ hB0] at h1
    by_contra hc
    have hc := not_le.1 hc
    have h3 : (s * B) * (s * B) < 8 * 8 := by
      have := mul_pos hs hB0
      exact mul_self_lt_mul_self this.le hc
    have h4 : a * B * B ≥ 2 * B := mul_le_mul_of_nonneg_right h1 hB0.le
    rw [← he] at h4
    linarith
  · by_contra hc
    have hc := not_le.1 hc
    have h3 : (B / 8) * (B / 8) < s * s := mul_self_lt_mul_self (by linarith) hc
    have h4 : 1024 * B ≤ B * B := mul_le_mul_of_nonneg_right hB hB0.le
    linarith

theorem scale_abs {a b k s : ℝ} (hs : 0 < s) (h : |a - b / s| ≤ k * (b / s)) : |a * s - b| ≤ k * b := by
  have e : a * s - b = (a - b / s) * s := by field_simp
  rw [e, abs_mul, abs_of_pos hs]
  calc _ ≤ k * (b / s) * s := mul_le_mul_of_nonneg_right h hs.le
    _ = k * b := by field_simp

set_option maxHeartbeats 1000000 in
/-- One step from near the inverse root. -/
theorem inv_step (h : Agrees I f) (hv : v < infinity I) (hn : 2 ^ f.p ≤ v) {s δ : ℝ} (hs : 0 < s) (hss : s * s = magnitude f v)
    {num : Nat} (hnum : num < infinity I) (hδ : δ ≤ 0.04) (hw : |(magnitude f num : ℝ) * s - 1| ≤ δ) :
    ∃ next, invStep I v num = some next ∧ next < infinity I ∧ |(magnitude f next : ℝ) * s - 1| ≤ 1.6 * δ ^ 2 + 2.4 * (1 / 2 ^ f.p) := by
  have hB := big_bias h
  have hP := big_p h
  obtain ⟨v1, v2⟩ := normal_range h hv hn
  obtain ⟨s1, s2⟩ := root_range hB hs hss v1 v2
  have he0 : (0 : ℝ) < 1 / 2 ^ f.p := by positivity
  have he : (1 : ℝ) / 2 ^ f.p ≤ 1 / 8388608 := one_div_le_one_div_of_le (by norm_num) hP
  have hdiv : ∀ q : ℝ, 0.51 / 2 ^ f.p * q = 0.51 * (1 / 2 ^ f.p) * q := by intro q; ring
  have h3u := (ofNat_eq h (n := 3) (by norm_num))
  have h2u := (ofNat_eq h (n := 2) (by norm_num))
  have hO : (0 : ℝ) < one I := by exact_mod_cast one_pos h
  have h3m : (magnitude f (ofNat I 3) : ℝ) = 3 := by
    have := magR h h3u.2.le
    rw [h3u.1] at this
    push_cast at this
    exact mul_right_cancel₀ hO.ne' this
  have h2m : (magnitude f (ofNat I 2) : ℝ) = 2 := by
    have := magR h h2u.2.le
    rw [h2u.1] at this
    push_cast at this
    exact mul_right_cancel₀ hO.ne' this
  obtain ⟨w1, w2⟩ := abs_le.1 hw
  -- w = num * s
  have hB0 : (0 : ℝ) < 2 ^ f.bias := by linarith
  have hrange : ∀ q : ℝ, 0.5 ≤ q → q ≤ 4 → 2 / 2 ^ f.bias ≤ q ∧ q ≤ 2 ^ f.bias := by
    intro q q1 q2
    refine ⟨?_, by linarith⟩
    rw [div_le_iff₀ hB0]
    have := mul_le_mul_of_nonneg_right q1 hB0.le
    linarith
  have hrs : ∀ q : ℝ, 0.5 ≤ q → q ≤ 4 → 2 / 2 ^ f.bias ≤ q * s ∧ q * s ≤ 2 ^ f.bias := by
    intro q q1 q2
    rw [div_le_iff₀ hB0] at s1 ⊢
    constructor
    · have := mul_le_mul_of_nonneg_right q1 (show 0 ≤ s * 2 ^ f.bias by positivity)
      linarith
    · have := mul_le_mul_of_nonneg_right q2 hs.le
      linarith
  have hrd : ∀ q : ℝ, 0.5 ≤ q → q ≤ 4 → 2 / 2 ^ f.bias ≤ q / s ∧ q / s ≤ 2 ^ f.bias := by
    intro q q1 q2
    rw [div_le_div_iff₀ hB0 hs, div_le_iff₀ hs]
    rw [div_le_iff₀ hB0] at s1
    constructor
    · have := mul_le_mul_of_nonneg_right q1 hB0.le
      linarith
    · linarith
  generalize hY : (magnitude f num : ℝ) = Y at *
  -- the products
  have qa : (magnitude f v : ℝ) * magnitude f num = Y * s * s := by rw [hY, ← hss]; ring
  obtain ⟨a1, a2, a3⟩ := fmul_rel (a := v) (b := num) h hv.le hnum.le (by rw [qa]; exact (hrs _ (by linarith) (by linarith)).1)
    (by rw [qa]; exact (hrs _ (by linarith) (by linarith)).2)
  rw [qa, hdiv] at a3
  generalize hM : fmul I v num = M at *
  obtain ⟨m, hm⟩ : ∃ m, (magnitude f M : ℝ) = m * s := ⟨magnitude f M / s, by field_simp⟩
  rw [hm, ← sub_mul, abs_mul, abs_of_pos hs, ← mul_assoc] at a3
  have a4 := le_of_mul_le_mul_right a3 hs
  have e51 : 0.51 * (1 / 2 ^ f.p) * (Y * s) ≤ (0.01 : ℝ) := by
    have k1 : 0.51 * (1 / 2 ^ f.p) * (Y * s) ≤ 0.51 * (1 / 8388608) * 2 := by
      apply mul_le_mul (by linarith) (by linarith) (by linarith) (by norm_num)
    linarith
  obtain ⟨m1, m2⟩ := abs_le.1 a4
  have mw1 : 0.9 ≤ m * (Y * s) := by
    have : 0.95 * 0.95 ≤ m * (Y * s) := mul_le_mul (by linarith) (by linarith) (by norm_num) (by linarith)
    linarith
  have mw2 : m * (Y * s) ≤ 1.12 := by
    have : m * (Y * s) ≤ 1.05 * 1.05 := mul_le_mul (by linarith) (by linarith) (by linarith) (by norm_num)
    linarith
  have qb : (magnitude f M : ℝ) * magnitude f num = m * (Y * s) := by rw [hY, hm]; ring
  obtain ⟨b1, b2, b3⟩ := fmul_rel (a := M) (b := num) h a2.le hnum.le (by rw [qb]; exact (hrange _ (by linarith) (by linarith)).1)
    (by rw [qb]; exact (hrange _ (by linarith) (by linarith)).2)
  rw [qb, hdiv] at b3
  generalize hX : fmul I M num = X at *
  generalize hx : (magnitude f X : ℝ) = x at *
  have e52 : 0.51 * (1 / 2 ^ f.p) * (m * (Y * s)) ≤ (0.01 : ℝ) := by
    have k1 : 0.51 * (1 / 2 ^ f.p) * (m * (Y * s)) ≤ 0.51 * (1 / 8388608) * 2 := by
      apply mul_le_mul (by linarith) (by linarith) (by linarith) (by norm_num)
    linarith
  obtain ⟨x1, x2⟩ := abs_le.1 b3
  have hX3 : X ≤ ofNat I 3 := by
    by_contra hc
    have h1 := units_le (p := f.p) (show ofNat I 3 ≤ X by omega)
    have h2 : (units f.p (ofNat I 3) : ℝ) ≤ units f.p X := by exact_mod_cast h1
    rw [← magR h h3u.2.le, ← magR h b2.le, h3m, hx] at h2
    have := le_of_mul_le_mul_right h2 hO
    linarith
  have qc : (magnitude f (ofNat I 3) : ℝ) - magnitude f X = 3 - x := by rw [h3m, hx]
  obtain ⟨c1, c2, c3⟩ := fdist_rel (a := ofNat I 3) (b := X) h h3u.2.le hX3 (by rw [qc]; exact (hrange _ (by linarith) (by linarith)).1)
    (by rw [qc]; exact (hrange _ (by linarith) (by linarith)).2)
  rw [qc, hdiv] at c3
  generalize hT : fdist I (ofNat I 3) X = T at *
  generalize ht : (magnitude f T : ℝ) = t at *
  have e53 : 0.51 * (1 / 2 ^ f.p) * (3 - x) ≤ (0.01 : ℝ) := by
    have k1 : 0.51 * (1 / 2 ^ f.p) * (3 - x) ≤ 0.51 * (1 / 8388608) * 3 := by
      apply mul_le_mul (by linarith) (by linarith) (by linarith) (by norm_num)
    linarith
  obtain ⟨t1, t2⟩ := abs_le.1 c3
  have wt1 : 1.6 ≤ Y * s * t := by
    have : 0.95 * 1.8 ≤ Y * s * t := mul_le_mul (by linarith) (by linarith) (by norm_num) (by linarith)
    linarith
  have wt2 : Y * s * t ≤ 2.4 := by
    have : Y * s * t ≤ 1.05 * 2.2 := mul_le_mul (by linarith) (by linarith) (by linarith) (by norm_num)
    linarith
  have qd : (magnitude f num : ℝ) * magnitude f T = Y * s * t / s := by rw [hY, ht]; field_simp
  obtain ⟨d1, d2, d3⟩ := fmul_rel (a := num) (b := T) h hnum.le c2.le (by rw [qd]; exact (hrd _ (by linarith) (by linarith)).1)
    (by rw [qd]; exact (hrd _ (by linarith) (by linarith)).2)
  rw [qd, hdiv] at d3
  generalize hQ : fmul I num T = Q at *
  obtain ⟨q, hq⟩ : ∃ q, (magnitude f Q : ℝ) = q / s := ⟨magnitude f Q * s, by field_simp⟩
  have d4 := scale_abs hs d3
  rw [hq, div_mul_cancel₀ _ hs.ne'] at d4
  have e54 : 0.51 * (1 / 2 ^ f.p) * (Y * s * t) ≤ (0.01 : ℝ) := by
    have k1 : 0.51 * (1 / 2 ^ f.p) * (Y * s * t) ≤ 0.51 * (1 / 8388608) * 3 := by
      apply mul_le_mul (by linarith) (by linarith) (by linarith) (by norm_num)
    linarith
  obtain ⟨q1, q2⟩ := abs_le.1 d4
  have qe : (magnitude f Q : ℝ) / magnitude f (ofNat I 2) = q / 2 / s := by rw [hq, h2m]; field_simp
  obtain ⟨r1, r2, r3⟩ := fdiv_rel (a := Q) (b := ofNat I 2) h d2.le h2u.2.le (by rw [h2u.1]; have := one_pos h; omega)
    (by rw [qe]; exact (hrd _ (by linarith) (by linarith)).1) (by rw [qe]; exact (hrd _ (by linarith) (by linarith)).2)
  rw [qe, hdiv] at r3
  have r4 := scale_abs hs r3
  refine ⟨fdiv I Q (ofNat I 2), ?_, r2, ?_⟩
  · unfold invStep
    dsimp only
    rw [hM, hX, if_pos hX3, hT, hQ]
  · exact step_error he0 he hδ hw a4 b3 c3 d4 r4

end ELC.Sqrt
