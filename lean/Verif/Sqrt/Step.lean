import Verif.Sqrt.Lemmas
/-! One step of the iteration, next to the two numbers around the root. -/
namespace ELC.Sqrt

open ELC.Float ELC.Float.Spec

variable {I : Info} {f : Format}

/-- `lo` is the greatest number whose square is not above `N` square units. -/
structure Around (I : Info) (f : Format) (N lo : Nat) : Prop where
  below : units f.p lo * units f.p lo ≤ N
  above : N < units f.p (lo + 1) * units f.p (lo + 1)
  normal : 2 * 2 ^ f.p ≤ lo
  room : lo + 4 + 2 ^ f.p < infinity I

variable {v lo x : Nat}

theorem two_le_pow (h : Agrees I f) : 2 ≤ 2 ^ f.p := by
  have := h.large.1
  calc 2 = 2 ^ 1 := rfl
    _ ≤ 2 ^ f.p := Nat.pow_le_pow_right (by decide) (by omega)

theorem even_pow (h : Agrees I f) : 2 ^ f.p % 2 = 0 := by
  have := h.large.1
  obtain ⟨k, hk⟩ : ∃ k, f.p = k + 1 := ⟨f.p - 1, by omega⟩
  rw [hk, pow_succ]; omega

/-- The quotient in the step. -/
def quot (I : Info) (v x : Nat) : Nat := fdiv I v x

theorem quot_eq (h : Agrees I f) : quot I v x = nearest I (units f.p v * one I) (units f.p x) := by
  unfold quot fdiv; rw [h.bit]

theorem sum_eq (h : Agrees I f) {y : Nat} : fadd I x y = nearest I (units f.p x + units f.p y) 1 := by
  unfold fadd; rw [h.bit]

/-- The step, once the sum is known to be normal. -/
theorem step_of (h : Agrees I f) {z : Nat} (h1 : fadd I x (quot I v x) = z) (h2 : 2 * 2 ^ f.p ≤ z) (h3 : z ≤ infinity I) :
    sqrtStep I v x = z - 2 ^ f.p := by
  unfold sqrtStep quot at *
  rw [h1]
  exact half_eq h h2 h3

theorem sum_le_infinity (I : Info) (a b : Nat) : nearest I a b ≤ infinity I := by
  unfold nearest; exact Nat.min_le_right _ _

/-- The two means. -/
theorem amgm {L X W : Nat} (hne : X ≠ L) (h2 : 2 * (L * L) ≤ X * W) (h3 : 2 * X + W ≤ 4 * L) : False := by
  have h4 : (X : ℤ) ≠ L := by exact_mod_cast hne
  have h5 : 0 < ((X : ℤ) - L) ^ 2 := lt_of_le_of_ne (sq_nonneg _) (Ne.symm (pow_ne_zero 2 (sub_ne_zero.2 h4)))
  have h6 : (X * (2 * X + W) : ℤ) ≤ X * (4 * L) := by exact_mod_cast Nat.mul_le_mul_left X h3
  have h7 : (2 * (L * L) : ℤ) ≤ X * W := by exact_mod_cast h2
  nlinarith

section
variable (h : Agrees I f) (ha : Around I f (units f.p v * one I) lo)
include h ha

theorem units_lo_pos : 0 < units f.p lo := by
  have := sp_le_units (p := f.p) (x := lo) (by have := ha.normal; omega)
  have h1 := Nat.mul_pos (Nat.two_pow_pos f.p) (sp_pos f.p lo)
  omega

theorem sp_lo_le : 2 * sp f.p lo ≤ units f.p lo := by
  have := sp_le_units (p := f.p) (x := lo) (by have := ha.normal; omega)
  have h1 := Nat.mul_le_mul_right (sp f.p lo) (two_le_pow h)
  omega

/-- The sum does not fall below twice `lo`. -/
theorem sum_ge (hx : 0 < x) : lo + 2 ^ f.p ≤ fadd I x (quot I v x) := by
  have hn := ha.normal
  have hroom := ha.room
  have hXp : 0 < units f.p x := by have := units_lt (p := f.p) hx; omega
  have hL2 : units f.p (lo + 2 ^ f.p) = 2 * units f.p lo := units_double (by omega)
  rw [sum_eq h]
  by_cases hy : lo + 2 ^ f.p ≤ quot I v x
  · apply nearest_ge h Nat.one_pos _ (by omega)
    have := units_le (p := f.p) hy
    omega
  · have hq := quot_eq (v := v) (x := x) h
    have hlt : nearest I (units f.p v * one I) (units f.p x) < infinity I := by omega
    obtain ⟨h1, _, _⟩ := nearest_mid h hXp hlt
    rw [← hq] at h1
    generalize hyy : quot I v x = y at *
    rw [units_sp] at h1
    -- X(2Y+s) ≥ 2L²
    have h2 : 2 * (units f.p lo * units f.p lo) ≤ units f.p x * (2 * units f.p y + sp f.p y) := by
      have := ha.below
      calc 2 * (units f.p lo * units f.p lo) ≤ 2 * (units f.p v * one I) := by omega
        _ ≤ _ := h1
        _ = _ := by ring
    obtain ⟨c, hc⟩ : ∃ c, lo = c + 1 := ⟨lo - 1, by omega⟩
    have e3 : units f.p lo = units f.p c + sp f.p c := by rw [hc, units_sp]
    have e0 : sp f.p y ≤ 2 * sp f.p c := by
      have m1 : sp f.p y ≤ sp f.p (c + 2 ^ f.p) := sp_mono (by omega)
      rw [sp_double (by omega)] at m1
      exact m1
    have hcp := sp_pos f.p c
    have strict : 4 * units f.p lo < 2 * units f.p x + 2 * units f.p y + 2 * sp f.p c := by
      by_cases hxl : x = lo
      · rw [hxl] at h2 ⊢
        have h3 : 2 * units f.p lo ≤ 2 * units f.p y + sp f.p y := by
          apply Nat.le_of_mul_le_mul_left (c := _) _ (units_lo_pos h ha)
          calc _ = 2 * (units f.p lo * units f.p lo) := by ring
            _ ≤ _ := h2
        by_contra hcon
        have e9 : sp f.p y = 2 * sp f.p c := by omega
        have h10 : lo ≤ y := by
          by_contra hc2
          have : sp f.p y ≤ sp f.p c := sp_mono (by omega)
          omega
        have := units_le (p := f.p) h10
        omega
      · by_contra hcon
        have hne : units f.p x ≠ units f.p lo := fun e => hxl (units_inj e)
        refine amgm hne h2 (by omega)
    have hsum : (c + 2 ^ f.p) + 1 ≤ nearest I (units f.p x + units f.p y) 1 := by
      apply nearest_up h Nat.one_pos (by omega)
      have e1 : units f.p (c + 2 ^ f.p) = 2 * units f.p c := units_double (by omega)
      have e2 : c + 2 ^ f.p + 1 = lo + 2 ^ f.p := by omega
      rw [e1, e2, hL2]
      omega
    omega

/-- Above `lo` the step does not go up. -/
theorem sum_le (hx : lo < x) : fadd I x (quot I v x) ≤ x + 2 ^ f.p := by
  have hn := ha.normal
  have hX : units f.p (lo + 1) ≤ units f.p x := units_le hx
  have hXp : 0 < units f.p x := lt_of_lt_of_le (units_lo_pos h ha) (units_le (by omega))
  have hy : quot I v x ≤ x := by
    rw [quot_eq h]
    apply nearest_le h hXp
    have := ha.above
    have := Nat.mul_le_mul hX hX
    omega
  rw [sum_eq h]
  apply nearest_le h Nat.one_pos
  rw [units_double (by omega)]
  have := units_le (p := f.p) hy
  omega

/-- At `lo` the quotient is near. -/
theorem quot_lo_le : quot I v lo ≤ lo + 2 := by
  have hn := ha.normal
  have hroom := ha.room
  have hLp := units_lo_pos h ha
  have hs := sp_lo_le h ha
  rw [quot_eq h]
  apply nearest_down h hLp (by omega)
  have e1 : units f.p (lo + 1) = units f.p lo + sp f.p lo := units_sp _ _
  have e2 : units f.p (lo + 2) = units f.p (lo + 1) + sp f.p (lo + 1) := units_sp _ _
  have e3 : units f.p (lo + 2 + 1) = units f.p (lo + 2) + sp f.p (lo + 2) := units_sp _ _
  have m1 : sp f.p lo ≤ sp f.p (lo + 1) := sp_mono (by omega)
  have m2 : sp f.p lo ≤ sp f.p (lo + 2) := sp_mono (by omega)
  have hab := ha.above
  rw [e1] at hab
  have g1 : 2 * units f.p lo + 5 * sp f.p lo ≤ units f.p (lo + 2) + units f.p (lo + 2 + 1) := by omega
  have g2 := Nat.mul_le_mul_left (units f.p lo) g1
  refine lt_of_lt_of_le ?_ g2
  generalize units f.p lo = L at *
  generalize sp f.p lo = s at *
  nlinarith

/-- From `lo` the step goes at most one up. -/
theorem sum_lo_le : fadd I lo (quot I v lo) ≤ lo + 1 + 2 ^ f.p := by
  have hn := ha.normal
  have hroom := ha.room
  have hy := units_le (p := f.p) (quot_lo_le h ha)
  rw [sum_eq h]
  apply nearest_down h Nat.one_pos (by omega)
  have e1 : units f.p (lo + 1) = units f.p lo + sp f.p lo := units_sp _ _
  have e2 : units f.p (lo + 2) = units f.p (lo + 1) + sp f.p (lo + 1) := units_sp _ _
  have d1 : units f.p (lo + 1 + 2 ^ f.p) = 2 * units f.p (lo + 1) := units_double (by omega)
  have d2 : units f.p (lo + 1 + 2 ^ f.p + 1) = 2 * units f.p (lo + 2) := by
    rw [show lo + 1 + 2 ^ f.p + 1 = lo + 2 + 2 ^ f.p by omega]; exact units_double (by omega)
  rw [d1, d2]
  have := sp_pos f.p lo
  omega

/-- A number above `lo` where the iteration stands still is the next one, and the root is not exact. -/
theorem sum_fix (hx : lo < x) (hr : x + 2 ^ f.p < infinity I) (hfix : fadd I x (quot I v x) = x + 2 ^ f.p) :
    x = lo + 1 ∧ units f.p lo * units f.p lo < units f.p v * one I := by
  have hn := ha.normal
  have hXp : 0 < units f.p x := lt_of_lt_of_le (units_lo_pos h ha) (units_le (by omega))
  obtain ⟨c, hc⟩ : ∃ c, x = c + 1 := ⟨x - 1, by omega⟩
  obtain ⟨b, hb⟩ : ∃ b, c = b + 1 := ⟨c - 1, by have := Nat.two_pow_pos f.p; omega⟩
  have eX : units f.p x = units f.p c + sp f.p c := by rw [hc, units_sp]
  have eC : units f.p c = units f.p b + sp f.p b := by rw [hb, units_sp]
  have m1 : sp f.p b ≤ sp f.p c := sp_mono (by omega)
  have key : units f.p c * units f.p c < units f.p v * one I := by
    rw [sum_eq h] at hfix
    have h1 := ((nearest_mid h Nat.one_pos (x := units f.p x + units f.p (quot I v x)) (by omega)).2.2 (c + 2 ^ f.p) (by omega)).1
    rw [show c + 2 ^ f.p + 1 = x + 2 ^ f.p by omega, units_double (x := c) (by omega), units_double (x := x) (by omega), Nat.one_mul] at h1
    have h2 : units f.p c ≤ units f.p (quot I v x) := by omega
    have h3 : c ≤ quot I v x := units_le_iff.1 h2
    rw [quot_eq h] at h3
    by_contra hcon
    have h4 : nearest I (units f.p v * one I) (units f.p x) ≤ b := by
      apply nearest_down h hXp (by omega)
      rw [← hb]
      have hcp : units f.p c > sp f.p c := by
        have := sp_le_units (p := f.p) (x := c) (by omega)
        have h5 := Nat.mul_le_mul_right (sp f.p c) (two_le_pow h)
        have := sp_pos f.p c
        omega
      have := sp_pos f.p c
      have hcon' := Nat.le_of_not_lt hcon
      rw [eX]
      have e5 : units f.p b + units f.p c = 2 * units f.p c - sp f.p b := by omega
      have e6 : 2 * units f.p c - sp f.p c ≤ units f.p b + units f.p c := by omega
      refine lt_of_lt_of_le ?_ (Nat.mul_le_mul_left _ e6)
      generalize units f.p c = B at *
      generalize sp f.p c = d at *
      obtain ⟨t, ht⟩ : ∃ t, B = d + t := ⟨B - d, by omega⟩
      subst ht
      rw [show 2 * (d + t) - d = d + 2 * t by omega]
      have : 0 < t := by omega
      nlinarith [Nat.mul_pos this ‹0 < d›]
    omega
  have h6 : c = lo := by
    by_contra hne
    have h7 : units f.p (lo + 1) ≤ units f.p c := units_le (by omega)
    have := Nat.mul_le_mul h7 h7
    have := ha.above
    omega
  subst h6
  exact ⟨hc, key⟩

end
end ELC.Sqrt
