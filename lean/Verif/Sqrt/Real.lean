import Verif.Sqrt.Ints
/-! From units to magnitudes. -/
namespace ELC.Sqrt

open ELC.Float ELC.Float.Spec

variable {I : Info} {f : Format} {v lo x r a n : Nat}

theorem plain_lt (h : Agrees I f) {d : Nat} : Plain f d ↔ d < infinity I := by
  rw [plain_iff h, infinity_eq h]

theorem mag_eq (h : Agrees I f) {d : Nat} (hd : d ≤ infinity I) : magnitude f d * one I = units f.p d := by
  have hpos : (0 : ℚ) < one I := by exact_mod_cast one_pos h
  have hlt : d < 2 ^ (f.width - 1) := by
    refine lt_of_le_of_lt hd ?_
    have e : 2 ^ (f.width - 1) = 2 ^ (f.width - 1 - f.p) * 2 ^ f.p := by
      rw [← pow_add]; congr 1; have := h.room; omega
    rw [e, h.expWidth, infinity_val h]
    exact Nat.mul_lt_mul_of_pos_right (by omega) (Nat.two_pow_pos _)
  rw [magnitude_one h d hlt]
  field_simp

theorem mag_nonneg (h : Agrees I f) {d : Nat} (hd : d ≤ infinity I) : 0 ≤ magnitude f d := by
  have hpos : (0 : ℚ) < one I := by exact_mod_cast one_pos h
  have h1 := mag_eq h hd
  have h2 : (0 : ℚ) ≤ units f.p d := by positivity
  rw [← h1] at h2
  exact nonneg_of_mul_nonneg_left h2 hpos

/-- Squares, compared to the number. -/
theorem sq_mag_le (h : Agrees I f) {d : Nat} (hd : d ≤ infinity I) (hv : v ≤ infinity I) (k l : Nat) :
    k * (units f.p d * units f.p d) ≤ l * (units f.p v * one I) ↔ (k : ℚ) * magnitude f d ^ 2 ≤ l * magnitude f v := by
  have hpos : (0 : ℚ) < one I := by exact_mod_cast one_pos h
  have h1 := mag_eq h hd
  have h2 := mag_eq h hv
  have h3 : (k * (units f.p d * units f.p d) ≤ l * (units f.p v * one I)) ↔
      ((k : ℚ) * (units f.p d * units f.p d) ≤ l * (units f.p v * one I)) := by exact_mod_cast Iff.rfl
  rw [h3, ← h1, ← h2]
  have e1 : (k : ℚ) * (magnitude f d * one I * (magnitude f d * one I)) = (k * magnitude f d ^ 2) * (one I * one I) := by ring
  have e2 : (l : ℚ) * (magnitude f v * one I * one I) = (l * magnitude f v) * (one I * one I) := by ring
  rw [e1, e2]
  exact mul_le_mul_iff_left₀ (mul_pos hpos hpos)

theorem sq_mag_le' (h : Agrees I f) {d : Nat} (hd : d ≤ infinity I) (hv : v ≤ infinity I) :
    units f.p d * units f.p d ≤ units f.p v * one I ↔ magnitude f d ^ 2 ≤ magnitude f v := by
  have := sq_mag_le h hd hv 1 1
  simpa using this

/-- The root in units, as a real number. -/
theorem sqrt_units (h : Agrees I f) (hv : v ≤ infinity I) :
    Real.sqrt (magnitude f v : ℝ) * one I = Real.sqrt ((units f.p v * one I : ℕ) : ℝ) := by
  have hpos : (0 : ℝ) < one I := by exact_mod_cast one_pos h
  have h2 : (magnitude f v : ℝ) * one I = units f.p v := by exact_mod_cast mag_eq h hv
  have h0 : (0 : ℝ) ≤ magnitude f v := by exact_mod_cast mag_nonneg h hv
  have e : ((units f.p v * one I : ℕ) : ℝ) = (magnitude f v : ℝ) * (one I * one I) := by
    push_cast; rw [← h2]; ring
  rw [e, Real.sqrt_mul h0, Real.sqrt_mul_self hpos.le]

theorem root_between (ha : Around I f (units f.p v * one I) lo) :
    (units f.p lo : ℝ) ≤ Real.sqrt ((units f.p v * one I : ℕ) : ℝ) ∧ Real.sqrt ((units f.p v * one I : ℕ) : ℝ) < units f.p (lo + 1) := by
  constructor
  · apply Real.le_sqrt_of_sq_le
    have := ha.below
    rw [sq]; exact_mod_cast this
  · rw [Real.sqrt_lt' (by
      have := units_lt_succ f.p lo
      have : 0 < units f.p (lo + 1) := by omega
      exact_mod_cast this)]
    have := ha.above
    rw [sq]; exact_mod_cast this

/-- How near a result is. -/
theorem result_close (h : Agrees I f) (hb : f.p + 3 ≤ f.bias) (hr : Result I f v lo r) (hv : v ≤ infinity I) :
    |(magnitude f r : ℝ) - Real.sqrt (magnitude f v : ℝ)| ≤ 5 * ((1 : ℝ) / 2 ^ f.p) * max 1 (Real.sqrt (magnitude f v : ℝ)) := by
  have hge := result_ge h hr
  have hhigh := result_high h hb hr
  have hfin : r < infinity I := by obtain ⟨_, w, _, _, _, _, w5, _⟩ := hr; exact w5
  have hA := hr.1
  have hn := hA.normal
  have hpos : (0 : ℝ) < one I := by exact_mod_cast one_pos h
  have e1 := sqrt_units h hv
  obtain ⟨b1, b2⟩ := root_between hA
  rw [← e1] at b1 b2
  have h2 : (magnitude f r : ℝ) * one I = units f.p r := by exact_mod_cast mag_eq h hfin.le
  generalize Real.sqrt (magnitude f v : ℝ) = S at *
  generalize (magnitude f r : ℝ) = R at *
  have heps : (units f.p (epsilon I) : ℝ) * 2 ^ f.p = one I := by exact_mod_cast (eps_units h hb).1
  have hP : (8388608 : ℝ) ≤ 2 ^ f.p := by
    have h3 : 2 ^ 23 ≤ 2 ^ f.p := Nat.pow_le_pow_right (by decide) h.large.1
    have h4 : 2 ^ 23 = 8388608 := by norm_num
    rw [h4] at h3
    exact_mod_cast h3
  have hlo : (2 ^ f.p : ℝ) * sp f.p lo ≤ units f.p lo := by exact_mod_cast sp_le_units (p := f.p) (x := lo) (by omega)
  have hrr : (2 ^ f.p : ℝ) * sp f.p r ≤ units f.p r := by exact_mod_cast sp_le_units (p := f.p) (x := r) (by omega)
  have hU : (units f.p (lo + 1) : ℝ) = units f.p lo + sp f.p lo := by exact_mod_cast units_sp f.p lo
  have hg : (units f.p lo : ℝ) ≤ units f.p r := by exact_mod_cast units_le hge
  have hh : (units f.p r : ℝ) ≤ units f.p (lo + 1) + 2 * units f.p (epsilon I) + sp f.p r := by
    rcases hhigh with hc | hc
    · have h5 : (units f.p r : ℝ) ≤ units f.p (lo + 1) := by exact_mod_cast units_le hc
      have : (0 : ℝ) ≤ units f.p (epsilon I) := by positivity
      have : (0 : ℝ) ≤ sp f.p r := by positivity
      linarith
    · exact_mod_cast hc
  have hu0 : (0 : ℝ) ≤ sp f.p lo := by positivity
  have hur0 : (0 : ℝ) ≤ sp f.p r := by positivity
  have he0 : (0 : ℝ) ≤ units f.p (epsilon I) := by positivity
  have hM1 : (1 : ℝ) ≤ max 1 S := le_max_left _ _
  have hM2 : S ≤ max 1 S := le_max_right _ _
  generalize max 1 S = M at *
  generalize (2 ^ f.p : ℝ) = P at *
  generalize (one I : ℝ) = O at *
  generalize (units f.p lo : ℝ) = L at *
  generalize (units f.p (lo + 1) : ℝ) = H at *
  generalize (units f.p r : ℝ) = U at *
  generalize (units f.p (epsilon I) : ℝ) = E at *
  generalize (sp f.p lo : ℝ) = u at *
  generalize (sp f.p r : ℝ) = t at *
  have hPp : 0 < P := by linarith
  have hSM : S * O ≤ M * O := mul_le_mul_of_nonneg_right hM2 hpos.le
  have hOM : O ≤ M * O := by nlinarith
  -- everything times P
  have k1 : P * u ≤ M * O := by linarith
  have k2 : P * E ≤ M * O := by linarith
  have k3 : P * U ≤ P * L + 3 * (M * O) + U := by
    have : P * U ≤ P * (H + 2 * E + t) := mul_le_mul_of_nonneg_left hh hPp.le
    rw [hU] at this
    nlinarith
  have k4 : U ≤ 2 * (M * O) := by
    have hMO : 0 ≤ M * O := by nlinarith
    have : (P - 1) * U ≤ (P + 3) * (M * O) := by nlinarith
    have : (P - 1) * U ≤ (P - 1) * (2 * (M * O)) := by nlinarith
    exact le_of_mul_le_mul_left this (by linarith)
  have k5 : P * (U - S * O) ≤ 5 * (M * O) := by nlinarith
  have k6 : P * (S * O - U) ≤ 5 * (M * O) := by
    have : P * (S * O) ≤ P * H := mul_le_mul_of_nonneg_left b2.le hPp.le
    rw [hU] at this
    nlinarith
  rw [abs_le]
  have e2 : 5 * (1 / P) * M = 5 * (M * O) / (P * O) := by field_simp
  rw [e2]
  have hPO := mul_pos hPp hpos
  constructor
  · rw [neg_le, neg_sub, le_div_iff₀ hPO]
    calc (S - R) * (P * O) = P * (S * O - R * O) := by ring
      _ = P * (S * O - U) := by rw [h2]
      _ ≤ _ := k6
  · rw [le_div_iff₀ hPO]
    calc (R - S) * (P * O) = P * (R * O - S * O) := by ring
      _ = P * (U - S * O) := by rw [h2]
      _ ≤ _ := k5

end ELC.Sqrt
