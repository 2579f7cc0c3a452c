import Verif.Whole.Spec
import Verif.Sqrt.Real
import Mathlib.Algebra.Order.Floor.Ring
import Mathlib.Data.Rat.Floor
/-! Whole parts, in units. -/
namespace ELC.Whole

open ELC.Float ELC.Float.Spec ELC.Sqrt

variable {I : Info} {f : Format} {m n : Nat}

/-- The integer part, converted back. -/
theorem ofNat_part (h : Agrees I f) (hm : m < infinity I) : ofNat I (units f.p m / one I) = intPart I m := by
  have h1 := (parts_eq h m).1
  have h2 := (plain_lt h).1 (intPart_plain h ((plain_lt h).2 hm))
  unfold ofNat
  rw [← h1]
  have := nearest_exact h (y := 1) (c := intPart I m) Nat.one_pos h2.le
  rwa [Nat.one_mul] at this

/-- The distance from the integer part. -/
theorem dist_part (h : Agrees I f) (hm : m < infinity I) : fdist I m (intPart I m) = fracPart I m := by
  obtain ⟨h1, h2⟩ := parts_eq h m
  have h3 := (plain_lt h).1 (fracPart_plain h ((plain_lt h).2 hm))
  unfold fdist
  rw [h.bit, h1]
  have e : units f.p m - units f.p m / one I * one I + (units f.p m / one I * one I - units f.p m) = 1 * units f.p (fracPart I m) := by
    rw [h2]
    have := Nat.div_add_mod (units f.p m) (one I)
    rw [Nat.mul_comm] at this
    omega
  rw [e]
  exact nearest_exact h Nat.one_pos h3.le

theorem close_part (h : Agrees I f) (hm : m < infinity I) :
    isClose I m (intPart I m) = true ↔ units f.p m % one I ≤ units f.p (epsilon I) := by
  unfold isClose
  rw [dist_part h hm, decide_eq_true_iff, ← (parts_eq h m).2, units_le_iff]

/-- A number with a fraction is small. -/
theorem small_of_fract (h : Agrees I f) (hf : units f.p m % one I ≠ 0) : units f.p m / one I < 2 ^ f.p := by
  by_contra hc
  apply hf
  have ho := one_pos h
  have h1 : 2 ^ f.p * one I ≤ units f.p m := (Nat.le_div_iff_mul_le ho).1 (by omega)
  have hpp := Nat.two_pow_pos f.p
  have hn : 2 ^ f.p ≤ m := by
    by_contra hc2
    have hd : m / 2 ^ f.p = 0 := Nat.div_eq_of_lt (by omega)
    have hu : units f.p m = m := by unfold units; rw [hd, if_pos rfl, Nat.mod_eq_of_lt (by omega)]
    have := Nat.mul_le_mul_left (2 ^ f.p) ho
    omega
  rw [units_normal hn] at h1 ⊢
  have hmod := Nat.mod_lt m hpp
  have h2 : one I < 2 * sp f.p m := by
    by_contra hc3
    have h3 : (2 ^ f.p + m % 2 ^ f.p) * sp f.p m < (2 * 2 ^ f.p) * sp f.p m := Nat.mul_lt_mul_of_pos_right (by omega) (sp_pos _ _)
    have h4 : 2 ^ f.p * (2 * sp f.p m) ≤ 2 ^ f.p * one I := Nat.mul_le_mul_left _ (by omega)
    have h5 : (2 * 2 ^ f.p) * sp f.p m = 2 ^ f.p * (2 * sp f.p m) := by ring
    omega
  apply Nat.mod_eq_zero_of_dvd
  apply Dvd.dvd.mul_left
  rw [one_eq h] at h2 ⊢
  unfold sp at h2 ⊢
  rw [← pow_succ'] at h2
  have := (Nat.pow_lt_pow_iff_right (by decide : 1 < 2)).1 h2
  exact pow_dvd_pow 2 (by omega)

/-- Whole numbers up to `2^p` are exact. -/
theorem whole_exact (h : Agrees I f) (hb : f.p ≤ f.bias) (hn : n ≤ 2 ^ f.p) : units f.p (ofNat I n) = n * one I ∧ ofNat I n < infinity I := by
  have he : units f.p (Float.trunc f.p (n * one I)) = n * one I := by
    rw [one_eq h]
    exact trunc_exact (lt_of_le_of_lt hn (Nat.pow_lt_pow_right (by decide) (by omega)))
  have hi : Float.trunc f.p (n * one I) < infinity I := by
    apply lt_infinity h
    rw [he]
    apply Nat.mul_lt_mul_of_pos_right _ (one_pos h)
    exact lt_of_le_of_lt hn (Nat.pow_lt_pow_right (by decide) (by omega))
  have e : ofNat I n = Float.trunc f.p (n * one I) := by
    have := nearest_exact h (y := 1) (c := Float.trunc f.p (n * one I)) Nat.one_pos hi.le
    rwa [Nat.one_mul, he] at this
  rw [e]
  exact ⟨he, hi⟩

/-- The sum of a whole number and one. -/
theorem add_one (h : Agrees I f) {y : Nat} (hy : units f.p y = n * one I) :
    fadd I y (ofNat I 1) = ofNat I (n + 1) := by
  have h1 := (ofNat_eq h (n := 1) (by norm_num)).1
  unfold fadd
  rw [h.bit, hy, h1, ← Nat.add_mul]
  rfl

/-- The difference of a whole number and one. -/
theorem sub_one (h : Agrees I f) {y : Nat} (hy : units f.p y = n * one I) :
    fdist I y (ofNat I 1) = ofNat I (n - 1 + (1 - n)) := by
  have h1 := (ofNat_eq h (n := 1) (by norm_num)).1
  unfold fdist
  rw [h.bit, hy, h1, ← Nat.sub_mul, ← Nat.sub_mul, ← Nat.add_mul]
  rfl

theorem magQ (h : Agrees I f) (hm : m ≤ infinity I) : magnitude f m = (units f.p m : ℚ) / one I := by
  have ho : (one I : ℚ) ≠ 0 := by exact_mod_cast (one_pos h).ne'
  rw [eq_div_iff ho]
  exact mag_eq h hm

/-- Floor and ceiling of a magnitude. -/
theorem floor_mag (h : Agrees I f) (hm : m ≤ infinity I) : ⌊magnitude f m⌋ = ((units f.p m / one I : ℕ) : ℤ) := by
  rw [magQ h hm]
  have := Rat.floor_intCast_div_natCast (units f.p m : ℤ) (one I)
  push_cast at this
  rw [this]
  simp

theorem fract_mag (h : Agrees I f) (hm : m ≤ infinity I) : Int.fract (magnitude f m) * one I = ((units f.p m % one I : ℕ) : ℚ) := by
  have ho : (one I : ℚ) ≠ 0 := by exact_mod_cast (one_pos h).ne'
  unfold Int.fract
  rw [floor_mag h hm, sub_mul, mag_eq h hm, Int.cast_natCast]
  have := Nat.div_add_mod (units f.p m) (one I)
  have h2 : ((one I * (units f.p m / one I) + units f.p m % one I : ℕ) : ℚ) = units f.p m := by rw [this]
  rw [Nat.cast_add, Nat.cast_mul] at h2
  linarith

/-- Whole, or between two whole numbers. -/
theorem whole_iff (h : Agrees I f) (hm : m ≤ infinity I) : Int.fract (magnitude f m) = 0 ↔ units f.p m % one I = 0 := by
  have ho : (one I : ℚ) ≠ 0 := by exact_mod_cast (one_pos h).ne'
  have h1 := fract_mag h hm
  constructor
  · intro h2
    rw [h2, zero_mul] at h1
    exact_mod_cast h1.symm
  · intro h2
    rw [h2] at h1
    simpa [ho] using h1

theorem eps_mag (h : Agrees I f) (hb : f.p + 3 ≤ f.bias) : magnitude f (epsilon I) = 1 / 2 ^ f.p ∧ epsilon I < infinity I := by
  obtain ⟨e1, _, e3⟩ := eps_units h hb
  have ho : (0 : ℚ) < one I := by exact_mod_cast one_pos h
  refine ⟨?_, e3⟩
  have h1 := mag_eq h e3.le
  have h2 : (units f.p (epsilon I) : ℚ) * 2 ^ f.p = one I := by exact_mod_cast e1
  rw [← h1] at h2
  rw [eq_div_iff (by positivity)]
  apply mul_right_cancel₀ ho.ne'
  linarith

theorem close_iff (h : Agrees I f) (hb : f.p + 3 ≤ f.bias) (hm : m < infinity I) :
    isClose I m (intPart I m) = true ↔ Int.fract (magnitude f m) ≤ 1 / 2 ^ f.p := by
  obtain ⟨e1, e2⟩ := eps_mag h hb
  have ho : (0 : ℚ) < one I := by exact_mod_cast one_pos h
  rw [close_part h hm, ← e1, ← mul_le_mul_iff_left₀ ho, fract_mag h hm.le, mag_eq h e2.le]
  exact_mod_cast Iff.rfl

theorem ceil_mag (x : ℚ) (hx : Int.fract x ≠ 0) : ⌈x⌉ = ⌊x⌋ + 1 := by
  rw [Int.ceil_eq_iff]
  have h1 := Int.floor_add_fract x
  have h2 := Int.fract_lt_one x
  have h3 := Int.fract_nonneg x
  have h4 : 0 < Int.fract x := lt_of_le_of_ne h3 (Ne.symm hx)
  push_cast
  constructor <;> linarith

end ELC.Whole
