import Verif.Sqrt.Cycle
/-! The first guess. -/
namespace ELC.Sqrt

open ELC.Float ELC.Float.Spec

variable {I : Info} {f : Format} {v lo x : Nat}

theorem bias_odd (h : Agrees I f) : ∃ b, f.bias = 2 * b + 1 ∧ 63 ≤ b := by
  have h1 := h.expWidth
  have h2 := h.large.2
  obtain ⟨k, hk⟩ : ∃ k, f.width - 1 - f.p = k + 2 := by
    refine ⟨f.width - 1 - f.p - 2, ?_⟩
    by_contra hc
    have : f.width - 1 - f.p ≤ 1 := by omega
    have := Nat.pow_le_pow_right (n := 2) (by decide) this
    omega
  rw [hk, pow_add] at h1
  exact ⟨f.bias / 2, by omega, by omega⟩

theorem infinity_le (h : Agrees I f) : infinity I ≤ 2 ^ (f.width - 1) := by
  have e : 2 ^ (f.width - 1) = 2 ^ (f.width - 1 - f.p) * 2 ^ f.p := by
    rw [← pow_add]; congr 1; have := h.room; omega
  rw [e, h.expWidth, infinity_val h]
  exact Nat.mul_le_mul_right _ (by omega)

/-- The guess without wrapping round. -/
theorem quick_eq (h : Agrees I f) (hv : v < infinity I) :
    quickSqrt I v = v / 2 + f.bias * 2 ^ (f.p - 1) ∧ quickSqrt I v + 4 + 2 ^ f.p < infinity I := by
  have hp := h.large.1
  have hb := h.large.2
  have hle := infinity_le h
  have hiv := infinity_val h
  have e : 2 ^ f.p = 2 * 2 ^ (f.p - 1) := by rw [← pow_succ']; congr 1; omega
  have hh : 8 ≤ 2 ^ (f.p - 1) := by
    calc 8 = 2 ^ 3 := rfl
      _ ≤ _ := Nat.pow_le_pow_right (by decide) (by omega)
  have hw : 2 ^ (f.width - 1) ≤ 2 ^ f.width := Nat.pow_le_pow_right (by decide) (by omega)
  have hm : 127 * 2 ^ (f.p - 1) ≤ f.bias * 2 ^ (f.p - 1) := Nat.mul_le_mul_right _ hb
  have e2 : (2 * f.bias + 1) * 2 ^ f.p = 4 * (f.bias * 2 ^ (f.p - 1)) + 2 * 2 ^ (f.p - 1) := by rw [e]; ring
  rw [e2] at hiv
  have key : quickSqrt I v = v / 2 + f.bias * 2 ^ (f.p - 1) := by
    unfold quickSqrt
    rw [h.diff, h.bit, h.width, Int.toNat_natCast, Nat.shiftLeft_eq, Nat.shiftRight_eq_div_pow, pow_one,
      Nat.mod_eq_of_lt (a := f.bias * 2 ^ (f.p - 1)) (by omega), Nat.mod_eq_of_lt (by omega)]
  refine ⟨key, ?_⟩
  rw [key, e]
  omega

theorem lower_small {P m X : Nat} (hm : m ≤ P) (h : (3 * P + m + 1) * (3 * P + m + 1) ≤ 2 * X * (2 * X)) : 4 * (m * P) < X * X := by
  obtain ⟨d, rfl⟩ := Nat.exists_eq_add_of_le hm
  nlinarith [Nat.zero_le (m * d), Nat.zero_le (d * d)]

theorem lower_even {P m X : Nat} (hm : m ≤ P) (h : (3 * P + m + 1) * (3 * P + m + 1) ≤ 2 * X * (2 * X)) : 2 * ((P + m) * P) < X * X := by
  obtain ⟨d, rfl⟩ := Nat.exists_eq_add_of_le hm
  nlinarith [Nat.zero_le (m * d), Nat.zero_le (d * d)]

theorem lower_odd {P m X : Nat} (h : (2 * P + m + 1) * (2 * P + m + 1) ≤ 2 * X * (2 * X)) : (P + m) * P < X * X := by
  nlinarith [Nat.zero_le (m * m)]

theorem upper_even {P m X : Nat} (hm : m ≤ P) (h : 2 * X * (2 * X) ≤ (3 * P + m) * (3 * P + m)) : 8 * (X * X) ≤ 9 * (2 * ((P + m) * P)) := by
  obtain ⟨d, rfl⟩ := Nat.exists_eq_add_of_le hm
  nlinarith [Nat.zero_le (m * d), Nat.zero_le (d * d), Nat.zero_le (m * m)]

theorem upper_odd {P m X : Nat} (hm : m ≤ P) (h : 2 * X * (2 * X) ≤ (2 * P + m) * (2 * P + m)) : 8 * (X * X) ≤ 9 * ((P + m) * P) := by
  obtain ⟨d, rfl⟩ := Nat.exists_eq_add_of_le hm
  nlinarith [Nat.zero_le (m * d), Nat.zero_le (d * d), Nat.zero_le (m * m)]

/-- The guess in units: its square, compared to the number, on a common scale. -/
theorem quick_parts (h : Agrees I f) (hv : v < infinity I) : ∃ a X Y, units f.p (quickSqrt I v) = X * 2 ^ a ∧
    units f.p (quickSqrt I v + 1) = (X + 1) * 2 ^ a ∧ units f.p v * one I = Y * (2 ^ a * 2 ^ a) ∧ Y < (X + 1) * (X + 1) ∧
    (2 ^ f.p ≤ v → 8 * (X * X) ≤ 9 * Y) := by
  obtain ⟨b, hb, hb63⟩ := bias_odd h
  obtain ⟨hq, _⟩ := quick_eq h hv
  have hp := h.large.1
  have e : 2 ^ f.p = 2 * 2 ^ (f.p - 1) := by rw [← pow_succ']; congr 1; omega
  have hP := Nat.two_pow_pos f.p
  have hdm := Nat.div_add_mod v (2 ^ f.p)
  have hlt := Nat.mod_lt v hP
  have hK : one I = 2 ^ f.p * (2 ^ b * 2 ^ b) := by
    rw [one_eq h]; unfold Kof; rw [← pow_add, ← pow_add]; congr 1; omega
  have hh : 2 ≤ 2 ^ (f.p - 1) := by
    calc 2 = 2 ^ 1 := rfl
      _ ≤ _ := Nat.pow_le_pow_right (by decide) (by omega)
  generalize hE : v / 2 ^ f.p = E at *
  generalize hm : v % 2 ^ f.p = m at *
  have hnorm : 2 ^ f.p ≤ v ↔ E ≠ 0 := by
    rw [← hE]
    constructor
    · intro h1; have := one_le_div h1; omega
    · intro h1; exact (Nat.one_le_div_iff hP).1 (by omega)
  -- the guess has the field `g` and the fraction `r`
  have mk : ∀ g r, quickSqrt I v = (g + 1) * 2 ^ f.p + r → r < 2 ^ f.p →
      units f.p (quickSqrt I v) = (2 ^ f.p + r) * 2 ^ g ∧ units f.p (quickSqrt I v + 1) = (2 ^ f.p + r + 1) * 2 ^ g := by
    intro g r h1 h2
    have hd : quickSqrt I v / 2 ^ f.p = g + 1 := by
      rw [h1, Nat.mul_comm, Nat.mul_add_div hP, Nat.div_eq_of_lt (by omega), Nat.add_zero]
    have hr : quickSqrt I v % 2 ^ f.p = r := by
      rw [h1, Nat.mul_comm, Nat.mul_add_mod, Nat.mod_eq_of_lt (by omega)]
    have hu := units_normal (p := f.p) (x := quickSqrt I v) (by rw [h1]; nlinarith)
    have hs : sp f.p (quickSqrt I v) = 2 ^ g := by unfold sp; rw [hd]; rfl
    rw [hr, hs] at hu
    refine ⟨hu, ?_⟩
    rw [units_sp, hu, hs]; ring
  have hv2 : v / 2 = E * 2 ^ (f.p - 1) + m / 2 := by
    rw [← hdm, e, Nat.mul_assoc, Nat.add_comm, Nat.add_mul_div_left _ _ (by decide)]; ring
  rw [hv2, hb] at hq
  by_cases hE0 : E = 0
  · -- subnormal
    have hu : units f.p v = m := by unfold units; rw [hE, hE0, if_pos rfl, hm]
    obtain ⟨g, hg⟩ : ∃ g, b = g + 1 := ⟨b - 1, by omega⟩
    obtain ⟨m1, m2⟩ := mk g (2 ^ (f.p - 1) + m / 2) (by rw [hq, hE0, hg, e]; ring) (by omega)
    refine ⟨g, _, 4 * (m * 2 ^ f.p), m1, m2, ?_, ?_, fun hc => absurd hE0 (hnorm.1 hc)⟩
    · rw [hu, hK, hg, pow_succ]; ring
    · have h1 : 3 * 2 ^ f.p + m + 1 ≤ 2 * (2 ^ f.p + (2 ^ (f.p - 1) + m / 2) + 1) := by omega
      have h2 := Nat.mul_self_le_mul_self h1
      exact lower_small hlt.le h2
  · have hu : units f.p v = (2 ^ f.p + m) * 2 ^ (E - 1) := by unfold units; rw [hE, if_neg hE0, hm]
    rcases Nat.even_or_odd' E with ⟨c, hc | hc⟩
    · obtain ⟨g, hg⟩ : ∃ g, c = g + 1 := ⟨c - 1, by omega⟩
      subst hg
      obtain ⟨m1, m2⟩ := mk (g + b) (2 ^ (f.p - 1) + m / 2) (by rw [hq, hc, e]; ring) (by omega)
      refine ⟨g + b, _, 2 * ((2 ^ f.p + m) * 2 ^ f.p), m1, m2, ?_, ?_, fun _ => ?_⟩
      · rw [hu, hK, hc, show 2 * (g + 1) - 1 = g + g + 1 by omega, pow_succ, pow_add 2 g g, pow_add 2 g b]; ring
      · have h1 : 3 * 2 ^ f.p + m + 1 ≤ 2 * (2 ^ f.p + (2 ^ (f.p - 1) + m / 2) + 1) := by omega
        have h2 := Nat.mul_self_le_mul_self h1
        exact lower_even hlt.le h2
      · have h1 : 2 * (2 ^ f.p + (2 ^ (f.p - 1) + m / 2)) ≤ 3 * 2 ^ f.p + m := by omega
        have h2 := Nat.mul_self_le_mul_self h1
        exact upper_even hlt.le h2
    · obtain ⟨m1, m2⟩ := mk (c + b) (m / 2) (by rw [hq, hc, e]; ring) (by omega)
      refine ⟨c + b, _, (2 ^ f.p + m) * 2 ^ f.p, m1, m2, ?_, ?_, fun _ => ?_⟩
      · rw [hu, hK, hc, Nat.add_sub_cancel, two_mul, pow_add 2 c c, pow_add 2 c b]; ring
      · have h1 : 2 * 2 ^ f.p + m + 1 ≤ 2 * (2 ^ f.p + m / 2 + 1) := by omega
        have h2 := Nat.mul_self_le_mul_self h1
        exact lower_odd h2
      · have h1 : 2 * (2 ^ f.p + m / 2) ≤ 2 * 2 ^ f.p + m := by omega
        have h2 := Nat.mul_self_le_mul_self h1
        exact upper_odd hlt.le h2

/-- The guess is not below the root. -/
theorem quick_above (h : Agrees I f) (hv : v < infinity I) :
    units f.p v * one I < units f.p (quickSqrt I v + 1) * units f.p (quickSqrt I v + 1) := by
  obtain ⟨a, X, Y, _, h2, h3, h4, _⟩ := quick_parts h hv
  rw [h2, h3]
  have := Nat.mul_lt_mul_of_pos_right h4 (Nat.mul_pos (Nat.two_pow_pos a) (Nat.two_pow_pos a))
  calc _ < _ := this
    _ = _ := by ring

/-- Nor far above it. -/
theorem quick_near (h : Agrees I f) (hv : v < infinity I) (hn : 2 ^ f.p ≤ v) :
    8 * (units f.p (quickSqrt I v) * units f.p (quickSqrt I v)) ≤ 9 * (units f.p v * one I) := by
  obtain ⟨a, X, Y, h2, _, h3, _, h4⟩ := quick_parts h hv
  rw [h2, h3]
  have := Nat.mul_le_mul_right (2 ^ a * 2 ^ a) (h4 hn)
  calc _ = _ := by ring
    _ ≤ _ := this
    _ = _ := by ring

/-- The numbers around the root. -/
theorem around (h : Agrees I f) (hb : f.p + 3 ≤ f.bias) (hv : v < infinity I) (h0 : 0 < v) :
    ∃ lo, Around I f (units f.p v * one I) lo ∧ lo ≤ quickSqrt I v := by
  obtain ⟨h1, h2⟩ := trunc_spec f.p (Nat.sqrt (units f.p v * one I))
  have hqa := quick_above h hv
  obtain ⟨_, hqr⟩ := quick_eq h hv
  generalize hlo : trunc f.p (Nat.sqrt (units f.p v * one I)) = lo at *
  have below := Nat.le_trans (Nat.mul_le_mul h1 h1) (Nat.sqrt_le (units f.p v * one I))
  have hle : lo ≤ quickSqrt I v := by
    by_contra hc
    have h3 : units f.p (quickSqrt I v + 1) ≤ units f.p lo := units_le (by omega)
    have := Nat.mul_le_mul h3 h3
    omega
  refine ⟨lo, ⟨below, Nat.sqrt_lt.1 h2, ?_, by omega⟩, hle⟩
  rw [← hlo]
  apply trunc_le_iff.1
  have e2 : units f.p (2 * 2 ^ f.p) = 2 * 2 ^ f.p := by
    unfold units
    rw [Nat.mul_div_left _ (Nat.two_pow_pos _), Nat.mul_mod_left, if_neg (by decide)]; ring
  rw [e2]
  apply Nat.le_sqrt.2
  have hpos : 0 < units f.p v := by
    have := units_lt (p := f.p) h0
    omega
  refine Nat.le_trans ?_ (Nat.le_mul_of_pos_left (one I) hpos)
  rw [one_eq h]
  unfold Kof
  calc 2 * 2 ^ f.p * (2 * 2 ^ f.p) = 2 ^ (f.p + f.p + 2) := by rw [pow_add, pow_add]; ring
    _ ≤ _ := Nat.pow_le_pow_right (by decide) (by omega)

end ELC.Sqrt
