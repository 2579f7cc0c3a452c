import Verif.Sqrt.Model
import Verif.Float.Props
/-! Units, spacing and rounding, as far as the square root needs them. -/
namespace ELC.Sqrt

open ELC.Float ELC.Float.Spec

variable {I : Info} {f : Format}

/-- The distance from the number with bytes `d` to the next one, in units. -/
def sp (p d : Nat) : Nat := 2 ^ (d / 2 ^ p - 1)

theorem sp_pos (p d : Nat) : 0 < sp p d := Nat.two_pow_pos _

theorem units_sp (p d : Nat) : units p (d + 1) = units p d + sp p d := units_succ p d

theorem sp_mono {p a b : Nat} (h : a ≤ b) : sp p a ≤ sp p b := by
  unfold sp
  have := Nat.div_le_div_right (c := 2 ^ p) h
  exact Nat.pow_le_pow_right (by decide) (by omega)

theorem add_div (p x : Nat) : (x + 2 ^ p) / 2 ^ p = x / 2 ^ p + 1 := Nat.add_div_right _ (Nat.two_pow_pos p)

theorem one_le_div {p x : Nat} (h : 2 ^ p ≤ x) : 1 ≤ x / 2 ^ p := (Nat.one_le_div_iff (Nat.two_pow_pos p)).2 h

/-- One more in the exponent is twice the number. -/
theorem units_double {p x : Nat} (h : 2 ^ p ≤ x) : units p (x + 2 ^ p) = 2 * units p x := by
  have h1 := one_le_div h
  unfold units
  rw [add_div, Nat.add_mod_right, if_neg (by omega), if_neg (by omega), Nat.add_sub_cancel]
  obtain ⟨k, hk⟩ : ∃ k, x / 2 ^ p = k + 1 := ⟨x / 2 ^ p - 1, by omega⟩
  rw [hk, Nat.add_sub_cancel, pow_succ]
  ring

theorem sp_double {p x : Nat} (h : 2 ^ p ≤ x) : sp p (x + 2 ^ p) = 2 * sp p x := by
  have h1 := one_le_div h
  unfold sp
  rw [add_div, Nat.add_sub_cancel]
  obtain ⟨k, hk⟩ : ∃ k, x / 2 ^ p = k + 1 := ⟨x / 2 ^ p - 1, by omega⟩
  rw [hk, Nat.add_sub_cancel, pow_succ]
  ring

/-- A normal number is worth at least `2^p` times its spacing, and less than twice that. -/
theorem units_normal {p x : Nat} (h : 2 ^ p ≤ x) : units p x = (2 ^ p + x % 2 ^ p) * sp p x := by
  have h1 := one_le_div h
  unfold units sp
  rw [if_neg (by omega)]

theorem sp_le_units {p x : Nat} (h : 2 ^ p ≤ x) : 2 ^ p * sp p x ≤ units p x := by
  rw [units_normal h]; exact Nat.mul_le_mul_right _ (Nat.le_add_right _ _)

/-- Where a result of rounding comes from. -/
theorem nearest_mid (h : Agrees I f) {x y : Nat} (hy : 0 < y) (hr : nearest I x y < infinity I) :
    2 * x ≤ y * (units f.p (nearest I x y) + units f.p (nearest I x y + 1)) ∧
    (2 * x = y * (units f.p (nearest I x y) + units f.p (nearest I x y + 1)) → nearest I x y % 2 = 0) ∧
    ∀ c, nearest I x y = c + 1 → y * (units f.p c + units f.p (c + 1)) ≤ 2 * x ∧
      (2 * x = y * (units f.p c + units f.p (c + 1)) → (c + 1) % 2 = 0) := by
  obtain ⟨r, h1, h2, h3⟩ := nearest_cases h hy hr
  rcases h3 with ⟨h3, h4, h5⟩ | ⟨h3, h4, h5⟩
  · refine ⟨by rw [h3]; exact h4, fun e => by rw [h3] at e ⊢; exact h5 e, ?_⟩
    intro c hc
    have : r = c + 1 := by omega
    subst this
    have h6 := Nat.mul_lt_mul_of_pos_left (units_lt_succ f.p c) hy
    rw [Nat.mul_add]
    constructor
    · omega
    · intro e; omega
  · have h6 := Nat.mul_lt_mul_of_pos_left (units_lt_succ f.p (r + 1)) hy
    refine ⟨by rw [h3, Nat.mul_add]; omega, fun e => by rw [h3, Nat.mul_add] at e; omega, ?_⟩
    intro c hc
    have : c = r := by omega
    subst this
    exact ⟨h4, h5⟩

/-- Rounding goes up to what is less than half a spacing above. -/
theorem nearest_up (h : Agrees I f) {x y c : Nat} (hy : 0 < y) (hi : c + 1 ≤ infinity I)
    (hc : y * (units f.p c + units f.p (c + 1)) < 2 * x) : c + 1 ≤ nearest I x y := by
  by_cases hr : nearest I x y < infinity I
  · by_contra hcon
    obtain ⟨h1, _, _⟩ := nearest_mid h hy hr
    have h2 : units f.p (nearest I x y) ≤ units f.p c := units_le (by omega)
    have h3 : units f.p (nearest I x y + 1) ≤ units f.p (c + 1) := units_le (by omega)
    have := Nat.mul_le_mul_left y (Nat.add_le_add h2 h3)
    omega
  · omega

/-- Rounding goes down to what is less than half a spacing below. -/
theorem nearest_down (h : Agrees I f) {x y c : Nat} (hy : 0 < y) (hi : c + 1 < infinity I)
    (hc : 2 * x < y * (units f.p c + units f.p (c + 1))) : nearest I x y ≤ c := by
  have h0 : nearest I x y ≤ c + 1 := by
    apply nearest_le h hy
    have h6 := Nat.mul_lt_mul_of_pos_left (units_lt_succ f.p c) hy
    rw [Nat.mul_add] at hc
    omega
  by_contra hcon
  have e : nearest I x y = c + 1 := by omega
  have := ((nearest_mid h hy (by omega)).2.2 c e).1
  omega

theorem units_two (h : Agrees I f) : units f.p (ofNat I 2) = 2 * one I := (ofNat_eq h (by norm_num)).1

/-- Halving is exact for normal numbers. -/
theorem half_eq (h : Agrees I f) {z : Nat} (h1 : 2 * 2 ^ f.p ≤ z) (h2 : z ≤ infinity I) : fdiv I z (ofNat I 2) = z - 2 ^ f.p := by
  have ho := one_pos h
  unfold fdiv
  rw [h.bit, units_two h]
  have e : units f.p z * one I = 2 * one I * units f.p (z - 2 ^ f.p) := by
    have := units_double (p := f.p) (x := z - 2 ^ f.p) (by omega)
    rw [show z - 2 ^ f.p + 2 ^ f.p = z by omega] at this
    rw [this]; ring
  rw [e]
  exact nearest_exact h (by omega) (by omega)

theorem infinity_val (h : Agrees I f) : infinity I = (2 * f.bias + 1) * 2 ^ f.p := by
  unfold infinity
  rw [h.emax, h.bit, Int.toNat_natCast]
  congr 1

end ELC.Sqrt
