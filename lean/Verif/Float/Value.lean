import Verif.Float.Make
import Mathlib.Tactic.FieldSimp
/-! Units and the rational numbers. -/
namespace ELC.Float

open Spec

variable {I : Info} {f : Format}

theorem mod_field (f : Format) (d : Nat) (hr : f.p + 2 ≤ f.width) :
    d % 2 ^ (f.width - 1) / 2 ^ f.p = field f d ∧ d % 2 ^ (f.width - 1) % 2 ^ f.p = fraction f d := by
  have e : 2 ^ (f.width - 1) = 2 ^ f.p * 2 ^ (f.width - 1 - f.p) := by rw [← pow_add]; congr 1; omega
  constructor
  · rw [e, Nat.mod_mul_right_div_self]; rfl
  · rw [e, Nat.mod_mul_right_mod]; rfl

theorem units_mod (f : Format) (d : Nat) (hr : f.p + 2 ≤ f.width) :
    units f.p (d % 2 ^ (f.width - 1)) =
      if field f d = 0 then fraction f d else (2 ^ f.p + fraction f d) * 2 ^ (field f d - 1) := by
  unfold units
  rw [(mod_field f d hr).1, (mod_field f d hr).2]

theorem two_zpow_ne (z : ℤ) : (2 : ℚ) ^ z ≠ 0 := zpow_ne_zero z (by norm_num)

theorem two_zpow_pos (z : ℤ) : (0 : ℚ) < 2 ^ z := zpow_pos (by norm_num) z

theorem two_zpow_add (a b : ℤ) : (2 : ℚ) ^ (a + b) = 2 ^ a * 2 ^ b := zpow_add₀ (by norm_num) a b

theorem two_zpow_nat (n : Nat) : (2 : ℚ) ^ (n : ℤ) = ((2 ^ n : Nat) : ℚ) := by rw [zpow_natCast]; push_cast; rfl

/-- The magnitude is the units, scaled. -/
theorem magnitude_eq (h : Agrees I f) (d : Nat) :
    magnitude f d = (units f.p (d % 2 ^ (f.width - 1)) : ℚ) * 2 ^ (-(Kof f : ℤ)) := by
  have hK : (Kof f : ℤ) = f.p + f.bias - 1 := by unfold Kof; have := h.biasPos; omega
  rw [units_mod f d h.room]
  unfold magnitude
  split
  · rw [hK]; congr 1; congr 1; ring
  · rename_i hne
    push_cast
    rw [mul_assoc]
    congr 1
    rw [← zpow_natCast, ← two_zpow_add, hK]
    congr 1
    have : ((field f d - 1 : Nat) : ℤ) = field f d - 1 := by omega
    rw [this]; ring

theorem plain_mod {d : Nat} (h : Plain f d) : d % 2 ^ (f.width - 1) = d := Nat.mod_eq_of_lt h.1

theorem magnitude_plain (h : Agrees I f) {d : Nat} (hd : d < 2 ^ (f.width - 1)) :
    magnitude f d = (units f.p d : ℚ) * 2 ^ (-(Kof f : ℤ)) := by
  rw [magnitude_eq h, Nat.mod_eq_of_lt hd]

/-- Comparing with a rational number is comparing with an integer number of units. -/
theorem magnitude_le_iff (h : Agrees I f) {d : Nat} (hd : d < 2 ^ (f.width - 1)) (q : ℚ) :
    magnitude f d ≤ q ↔ (units f.p d : ℚ) ≤ q * 2 ^ (Kof f : ℤ) := by
  rw [magnitude_plain h hd, zpow_neg, ← div_eq_mul_inv, div_le_iff₀ (two_zpow_pos _)]

theorem le_magnitude_iff (h : Agrees I f) {d : Nat} (hd : d < 2 ^ (f.width - 1)) (q : ℚ) :
    q ≤ magnitude f d ↔ q * 2 ^ (Kof f : ℤ) ≤ (units f.p d : ℚ) := by
  rw [magnitude_plain h hd, zpow_neg, ← div_eq_mul_inv, le_div_iff₀ (two_zpow_pos _)]

theorem magnitude_le_magnitude (h : Agrees I f) {a b : Nat} (ha : a < 2 ^ (f.width - 1)) (hb : b < 2 ^ (f.width - 1)) :
    magnitude f a ≤ magnitude f b ↔ a ≤ b := by
  rw [magnitude_plain h ha, magnitude_plain h hb, mul_le_mul_iff_left₀ (two_zpow_pos _), Nat.cast_le, units_le_iff]

theorem magnitude_inj (h : Agrees I f) {a b : Nat} (ha : a < 2 ^ (f.width - 1)) (hb : b < 2 ^ (f.width - 1))
    (he : magnitude f a = magnitude f b) : a = b :=
  Nat.le_antisymm ((magnitude_le_magnitude h ha hb).1 he.le) ((magnitude_le_magnitude h hb ha).1 he.ge)

/-- The first pattern that is not a finite number. -/
def top (f : Format) : Nat := (2 * f.bias + 1) * 2 ^ f.p

theorem top_lt (h : Agrees I f) : top f < 2 ^ (f.width - 1) := by
  have e : 2 ^ (f.width - 1) = 2 ^ (f.width - 1 - f.p) * 2 ^ f.p := by
    rw [← pow_add]; congr 1; have := h.room; omega
  rw [e, h.expWidth]
  exact Nat.mul_lt_mul_of_pos_right (by omega) (Nat.two_pow_pos _)

theorem plain_iff (h : Agrees I f) (d : Nat) : Plain f d ↔ d < top f := by
  have e : 2 ^ (f.width - 1) = 2 ^ (f.width - 1 - f.p) * 2 ^ f.p := by
    rw [← pow_add]; congr 1; have := h.room; omega
  have hp := Nat.two_pow_pos f.p
  constructor
  · intro ⟨h1, h2⟩
    unfold Finite at h2
    have hm := (mod_field f d h.room).1
    rw [Nat.mod_eq_of_lt h1] at hm
    rw [← hm] at h2
    rw [e] at h1
    have h3 : d / 2 ^ f.p < 2 ^ (f.width - 1 - f.p) := (Nat.div_lt_iff_lt_mul hp).2 h1
    rw [h.expWidth] at h2 h3
    exact (Nat.div_lt_iff_lt_mul hp).1 (show d / 2 ^ f.p < 2 * f.bias + 1 by omega)
  · intro hd
    have h1 := Nat.lt_trans hd (top_lt h)
    refine ⟨h1, ?_⟩
    unfold Finite
    have hm := (mod_field f d h.room).1
    rw [Nat.mod_eq_of_lt h1] at hm
    rw [← hm, h.expWidth]
    have := (Nat.div_lt_iff_lt_mul hp).2 hd
    omega

theorem units_top (h : Agrees I f) : units f.p (top f) = 2 ^ (f.bias + 1 + Kof f) := by
  have hp := Nat.two_pow_pos f.p
  unfold units top
  rw [Nat.mul_div_cancel _ hp, Nat.mul_mod_left, if_neg (by omega), Nat.add_zero, ← pow_add]
  congr 1
  unfold Kof; have := h.biasPos; omega

/-- Rounding down to units and truncating is rounding down. -/
theorem down_trunc (h : Agrees I f) {q : ℚ} {x : Nat} (h1 : (x : ℚ) ≤ q * 2 ^ (Kof f : ℤ))
    (h2 : q * 2 ^ (Kof f : ℤ) < x + 1) (hx : x < 2 ^ (f.bias + 1 + Kof f)) : Down f q (trunc f.p x) := by
  obtain ⟨t1, t2⟩ := trunc_spec f.p x
  have hlt : trunc f.p x < top f := by
    by_contra hc
    have := units_le (p := f.p) (Nat.le_of_not_lt hc)
    rw [units_top h] at this
    omega
  have hpl := (plain_iff h _).2 hlt
  refine ⟨hpl, (magnitude_le_iff h hpl.1 q).2 ?_, ?_⟩
  · exact le_trans (by exact_mod_cast t1) h1
  · intro d' hd' hle
    rw [magnitude_le_magnitude h hd'.1 hpl.1]
    rw [magnitude_le_iff h hd'.1] at hle
    apply trunc_le_iff.1
    have : (units f.p d' : ℚ) < x + 1 := lt_of_le_of_lt hle h2
    have : units f.p d' < x + 1 := by exact_mod_cast this
    omega

/-- There is only one number rounded down to. -/
theorem down_unique (h : Agrees I f) {q : ℚ} {a b : Nat} (ha : Down f q a) (hb : Down f q b) : a = b :=
  magnitude_inj h ha.1.1 hb.1.1 (le_antisymm (hb.2.2 a ha.1 ha.2.1) (ha.2.2 b hb.1 hb.2.1))

theorem up_unique (h : Agrees I f) {q : ℚ} {a b : Nat} (ha : Up f q a) (hb : Up f q b) : a = b :=
  magnitude_inj h ha.1.1 hb.1.1 (le_antisymm (ha.2.2 b hb.1 hb.2.1) (hb.2.2 a ha.1 ha.2.1))

/-- `scale` is the integer part of the scaled number. -/
theorem scale_spec (n : Nat) (z : ℤ) : (scale n z : ℚ) ≤ n * 2 ^ z ∧ (n : ℚ) * 2 ^ z < scale n z + 1 := by
  unfold scale
  split
  · rename_i hz
    obtain ⟨t, rfl⟩ := Int.eq_ofNat_of_zero_le hz
    rw [Int.toNat_natCast, two_zpow_nat]
    push_cast
    constructor
    · exact le_refl _
    · linarith
  · rename_i hz
    obtain ⟨t, rfl⟩ : ∃ t : Nat, z = -t := ⟨(-z).toNat, by omega⟩
    rw [show (-(-(t : Int))).toNat = t by omega, zpow_neg, ← div_eq_mul_inv, two_zpow_nat]
    have hp : (0 : ℚ) < ((2 ^ t : Nat) : ℚ) := by exact_mod_cast Nat.two_pow_pos t
    have h1 := Nat.div_add_mod n (2 ^ t)
    have h2 := Nat.mod_lt n (Nat.two_pow_pos t)
    constructor
    · rw [le_div_iff₀ hp]
      have : n / 2 ^ t * 2 ^ t ≤ n := by rw [Nat.mul_comm]; omega
      exact_mod_cast this
    · rw [div_lt_iff₀ hp]
      have : n < (n / 2 ^ t + 1) * 2 ^ t := by rw [Nat.add_mul, Nat.mul_comm (n / _)]; omega
      exact_mod_cast this

end ELC.Float
