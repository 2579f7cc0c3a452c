import Verif.Native.Model
import Verif.Native.Spec
import Verif.Convert.Lemmas
import Verif.Bigint.Props
import Verif.Arith.Props
import Mathlib.Algebra.Order.Field.Basic
import Mathlib.Tactic.Ring
import Mathlib.Tactic.Linarith
import Mathlib.Tactic.FieldSimp
/-! Helper lemmas for native integers mixed with big numbers. -/
namespace ELC.Native
open ELC.Convert (NType castTo negTo castTo_fits castTo_cast castTo_mod castTo_congr negTo_eq)
open ELC.Convert.Spec (Fits Cast)
open Bigfloat (UFrac Frac)
open Bigfloat.Spec (uvalue)
open Spec (IsCeil SameSign)

theorem uvalue_mul (a b : UFrac) : uvalue (a.mul b) = uvalue a * uvalue b := by
  unfold uvalue UFrac.mul
  push_cast
  rw [div_mul_div_comm]

theorem ufracPowLoop_value (a : UFrac) (b : Nat) (r : UFrac) :
    uvalue (ufracPowLoop a b r) = uvalue r * uvalue a ^ b := by
  induction b using Nat.strongRecOn generalizing a r with
  | ind b ih =>
    unfold ufracPowLoop
    by_cases h : b = 0
    · rw [dif_pos h, h, pow_zero, mul_one]
    · rw [dif_neg h, ih (b / 2) (by omega)]
      have e1 : uvalue (UFrac.mulAssign true a a) = uvalue a * uvalue a := by
        rw [← uvalue_mul]; rfl
      have e2 : uvalue (UFrac.mulAssign false r a) = uvalue r * uvalue a := by
        rw [← uvalue_mul]; rfl
      rw [e1, ← pow_two, ← pow_mul]
      by_cases hb : b % 2 = 1
      · rw [if_pos hb, e2, mul_assoc, ← pow_succ']
        congr 2
        omega
      · rw [if_neg hb]
        congr 2
        omega

theorem ufracPowLoop_finite (a : UFrac) (b : Nat) (r : UFrac) (ha : a.den ≠ 0) (hr : r.den ≠ 0) :
    (ufracPowLoop a b r).den ≠ 0 := by
  induction b using Nat.strongRecOn generalizing a r with
  | ind b ih =>
    unfold ufracPowLoop
    by_cases h : b = 0
    · rw [dif_pos h]; exact hr
    · rw [dif_neg h]
      apply ih (b / 2) (by omega)
      · exact Nat.mul_ne_zero ha ha
      · split
        · exact Nat.mul_ne_zero hr ha
        · exact hr

theorem ufracPow_value (a : UFrac) (b : Nat) : uvalue (ufracPow a b) = uvalue a ^ b := by
  unfold ufracPow
  rw [ufracPowLoop_value]
  have : uvalue (UFrac.ofNat 1) = 1 := by unfold uvalue UFrac.ofNat; simp
  rw [this, one_mul]

theorem ufracPow_finite (a : UFrac) (b : Nat) (ha : a.den ≠ 0) : (ufracPow a b).den ≠ 0 :=
  ufracPowLoop_finite a b _ ha (by decide)

/-- What `abs` gives of a number of the type that is not the least. -/
theorem absN_eq (T : NType) (a : Int) (hf : Fits T.signed T.bits a) (hm : T.signed = true → a ≠ T.min) :
    absN T a = some a.natAbs := by
  have h8 := T.bits_pos
  have hh := Convert.pow_half (b := T.bits) (by omega)
  unfold absN
  cases hs : T.signed
  · rw [if_neg (by decide)]
    unfold Fits at hf
    rw [hs, if_neg (by decide)] at hf
    congr 1
    omega
  · rw [if_pos rfl]
    have hmin : T.min = -2 ^ (T.bits - 1) := by unfold NType.min; rw [hs]; rfl
    have hm' := hm hs
    unfold Fits at hf
    rw [hs, if_pos rfl] at hf
    unfold Numeral.absSigned
    have e : ((2 ^ (T.bits - 1) : Nat) : Int) = 2 ^ (T.bits - 1) := by push_cast; rfl
    have e' : ((2 ^ T.bits : Nat) : Int) = 2 ^ T.bits := by push_cast; rfl
    by_cases h0 : a < 0
    · rw [if_pos h0, if_neg (by rintro ⟨-, hc⟩; apply hm'; rw [hmin, hc, e]), Nat.mod_eq_of_lt (by omega)]
      congr 1
      omega
    · rw [if_neg h0]
      congr 1
      omega

/-- `abs` of the least number. -/
theorem absN_min (T : NType) (hs : T.signed = true) :
    absN T T.min = if 32 ≤ T.bits then none else some (2 ^ (T.bits - 1)) := by
  have h8 := T.bits_pos
  have hh := Convert.pow_half_nat (b := T.bits) (by omega)
  have hp : 0 < 2 ^ (T.bits - 1) := Nat.pow_pos (by decide)
  have hmin : T.min = -2 ^ (T.bits - 1) := by unfold NType.min; rw [hs]; rfl
  have e : ((2 ^ (T.bits - 1) : Nat) : Int) = 2 ^ (T.bits - 1) := by push_cast; rfl
  have hneg : T.min < 0 := by rw [hmin]; omega
  unfold absN Numeral.absSigned
  rw [if_pos hs, if_pos hneg]
  by_cases h : 32 ≤ T.bits
  · rw [if_pos h, if_pos ⟨h, by rw [hmin, e]⟩]
  · rw [if_neg h, if_neg (fun hc => h hc.1), hmin, neg_neg, ← e, Int.toNat_natCast, Nat.mod_eq_of_lt (by omega)]

theorem fits_of_natAbs_le {T : NType} {a z : Int} (hf : Fits T.signed T.bits a) (hm : T.signed = true → a ≠ T.min)
    (hs : T.signed = true) (hz : z.natAbs ≤ a.natAbs) : Fits T.signed T.bits z ∧ z ≠ T.min := by
  have hmin : T.min = -2 ^ (T.bits - 1) := by unfold NType.min; rw [hs]; rfl
  have hm' := hm hs
  unfold Fits at hf ⊢
  rw [hs, if_pos rfl] at hf ⊢
  rw [hmin] at hm' ⊢
  omega

/-- `copy_as_negative` of a number of a signed type that is not the least. -/
theorem copyNeg_signed {T : NType} (hs : T.signed = true) {x : Int} (hx : x ≠ T.min) (negative : Bool) :
    copyNeg T x negative = some (if negative then -x else x) := by
  unfold copyNeg
  cases negative
  · rfl
  · rw [if_pos rfl, if_pos rfl, zero_sub]
    by_cases h : T.bits < 32
    · rw [if_pos h]
    · rw [if_neg h, if_pos hs, if_neg hx]

theorem bigTo_signed {T : NType} (hs : T.signed = true) (a : Bigint.Big)
    (hf : Fits T.signed T.bits (Bigint.Spec.value a)) : bigTo T a = Bigint.Spec.value a := by
  unfold bigTo
  rw [if_pos hs, negTo_eq T _ (Nat.le_of_lt (Nat.mod_lt _ (Nat.pow_pos (by decide))))]
  have e : ((a.num % 2 ^ T.bits : Nat) : Int) ≡ a.num [ZMOD 2 ^ T.bits] := by
    rw [Int.natCast_mod, Nat.cast_pow]
    exact Int.mod_modEq _ _
  rw [← castTo_fits T hf]
  apply castTo_congr
  unfold Bigint.Spec.value
  split
  · exact e.neg
  · exact e

theorem value_natAbs (a : Bigint.Big) : (Bigint.Spec.value a).natAbs = a.num := by
  unfold Bigint.Spec.value
  split <;> omega

theorem neg_iff (T : NType) {a : Int} (hs : T.signed = true) : isNeg T a = decide (a < 0) := by
  unfold isNeg
  rw [hs, Bool.true_and]

theorem tdiv_abs (a b : Int) : a.tdiv b =
    if (decide (a < 0) != decide (b < 0)) = true then -((a.natAbs / b.natAbs : Nat) : Int) else ((a.natAbs / b.natAbs : Nat) : Int) := by
  have h := Bigint.tdiv_signs a.natAbs b.natAbs (decide (a < 0)) (decide (b < 0))
  have ea : (if decide (a < 0) = true then -(a.natAbs : Int) else a.natAbs) = a := by
    by_cases h : a < 0
    · rw [if_pos (by simpa using h)]; omega
    · rw [if_neg (by simpa using h)]; omega
  have eb : (if decide (b < 0) = true then -(b.natAbs : Int) else b.natAbs) = b := by
    by_cases h : b < 0
    · rw [if_pos (by simpa using h)]; omega
    · rw [if_neg (by simpa using h)]; omega
  rw [ea, eb] at h
  rw [h]

theorem tmod_abs (a b : Int) : a.tmod b =
    if a < 0 then -((a.natAbs % b.natAbs : Nat) : Int) else ((a.natAbs % b.natAbs : Nat) : Int) := by
  have h := Bigint.tmod_signs a.natAbs b.natAbs (decide (a < 0)) (decide (b < 0))
  have ea : (if decide (a < 0) = true then -(a.natAbs : Int) else a.natAbs) = a := by
    by_cases h : a < 0
    · rw [if_pos (by simpa using h)]; omega
    · rw [if_neg (by simpa using h)]; omega
  have eb : (if decide (b < 0) = true then -(b.natAbs : Int) else b.natAbs) = b := by
    by_cases h : b < 0
    · rw [if_pos (by simpa using h)]; omega
    · rw [if_neg (by simpa using h)]; omega
  rw [ea, eb] at h
  rw [← h]
  by_cases h : a < 0
  · rw [if_pos h, if_pos (by simpa using h)]
  · rw [if_neg h, if_neg (by simpa using h)]

theorem zpow_abs_nonneg (q : ℚ) {e : Int} (h : ¬ e < 0) : q ^ e = q ^ e.natAbs := by
  have : (e.natAbs : Int) = e := by omega
  rw [← zpow_natCast, this]

theorem zpow_abs_neg (q : ℚ) {e : Int} (h : e < 0) : q ^ e = (q⁻¹) ^ e.natAbs := by
  have : e = -(e.natAbs : Int) := by omega
  conv_lhs => rw [this]
  rw [zpow_neg, zpow_natCast, inv_pow]

theorem neg_pow_value (s : Bool) (q : ℚ) (n : Nat) :
    (if (s && decide (n % 2 = 1)) = true then -(q ^ n) else q ^ n) = (if s = true then -q else q) ^ n := by
  cases s
  · simp
  · rcases Nat.mod_two_eq_zero_or_one n with h | h
    · have he : Even n := Nat.even_iff.2 h
      simp [h, he.neg_pow]
    · have ho : Odd n := Nat.odd_iff.2 h
      simp [h, ho.neg_pow]

theorem ceil_unique {a b r r' : Int} (h : IsCeil a b r) (h' : IsCeil a b r') : r = r' := by
  have h1 : (r : ℚ) - 1 < r' := lt_of_lt_of_le h.2 h'.1
  have h2 : (r' : ℚ) - 1 < r := lt_of_lt_of_le h'.2 h.1
  have a1 : r - 1 < r' := by exact_mod_cast h1
  have a2 : r' - 1 < r := by exact_mod_cast h2
  omega

theorem isCeil_pos {a b r : Int} (hb : 0 < b) : IsCeil a b r ↔ a ≤ r * b ∧ (r - 1) * b < a := by
  have hb' : (0 : ℚ) < b := by exact_mod_cast hb
  unfold IsCeil
  rw [div_le_iff₀ hb', lt_div_iff₀ hb']
  constructor
  · rintro ⟨h1, h2⟩; exact ⟨by exact_mod_cast h1, by exact_mod_cast h2⟩
  · rintro ⟨h1, h2⟩; exact ⟨by exact_mod_cast h1, by exact_mod_cast h2⟩

theorem isCeil_neg {a b r : Int} (hb : b < 0) : IsCeil a b r ↔ r * b ≤ a ∧ a < (r - 1) * b := by
  have hb' : (b : ℚ) < 0 := by exact_mod_cast hb
  unfold IsCeil
  rw [div_le_iff_of_neg hb', lt_div_iff_of_neg hb']
  constructor
  · rintro ⟨h1, h2⟩; exact ⟨by exact_mod_cast h1, by exact_mod_cast h2⟩
  · rintro ⟨h1, h2⟩; exact ⟨by exact_mod_cast h1, by exact_mod_cast h2⟩

/-- The quotient rounded up, from that rounded towards zero. -/
theorem ceil_exact (a b : Int) (hb : b ≠ 0) :
    (SameSign a b → IsCeil a b (a.tdiv b + if a.tmod b ≠ 0 then 1 else 0)) ∧
    (¬ SameSign a b → IsCeil a b (a.tdiv b)) := by
  have h1 := Int.mul_tdiv_add_tmod a b
  have h2 : (a.tmod b).natAbs < b.natAbs := by
    rw [Int.natAbs_tmod]
    exact Nat.mod_lt _ (by omega)
  have h3 : 0 ≤ a → 0 ≤ a.tmod b := by
    intro h
    rw [tmod_abs, if_neg (by omega)]
    omega
  have h4 : a ≤ 0 → a.tmod b ≤ 0 := by
    intro h
    rw [tmod_abs]
    split
    · omega
    · have : a = 0 := by omega
      rw [this]
      simp
  generalize a.tdiv b = q at *
  generalize a.tmod b = m at *
  have e1 : (q + 1) * b = b * q + b := by ring
  have e2 : (q - 1) * b = b * q - b := by ring
  have e3 : q * b = b * q := by ring
  unfold SameSign
  constructor
  · intro hs
    by_cases hm : m = 0
    · rw [if_neg (by simpa using hm), add_zero]
      rcases hs with ⟨s1, s2⟩ | ⟨s1, s2⟩
      · rw [isCeil_pos s2, e3, e2]; omega
      · rw [isCeil_neg s2, e3, e2]; omega
    · rw [if_pos hm]
      rcases hs with ⟨s1, s2⟩ | ⟨s1, s2⟩
      · rw [isCeil_pos s2, e1, add_sub_cancel_right, e3]; have := h3 s1; omega
      · rw [isCeil_neg s2, e1, add_sub_cancel_right, e3]; have := h4 s1; omega
  · intro hs
    rcases Int.lt_or_gt_of_ne hb with s2 | s2
    · rw [isCeil_neg s2, e3, e2]
      have := h3 (by omega)
      omega
    · rw [isCeil_pos s2, e3, e2]
      have := h4 (by omega)
      omega

/-- The sum that `ceil_div` computes is small. -/
theorem ceil_sum_bound (a b : Int) (hb : b ≠ 0) :
    (a.tdiv b + if a.tmod b ≠ 0 then 1 else 0) ≤ a.natAbs ∧ -(a.natAbs : Int) ≤ a.tdiv b ∧
    (a.tmod b ≠ 0 → 2 * (a.tdiv b).natAbs ≤ a.natAbs) ∧ (a.tdiv b = a.natAbs → a ≠ 0 → (b = 1 ∨ b = -1)) ∧
    (SameSign a b → 0 ≤ a.tdiv b) ∧ (¬ SameSign a b → a.tdiv b ≤ 0) := by
  have hq : (a.tdiv b).natAbs = a.natAbs / b.natAbs := Int.natAbs_tdiv a b
  have hm : (a.tmod b).natAbs = a.natAbs % b.natAbs := Int.natAbs_tmod a b
  have hle : a.natAbs / b.natAbs ≤ a.natAbs := Nat.div_le_self _ _
  have hd := Nat.div_add_mod a.natAbs b.natAbs
  have htwo : a.tmod b ≠ 0 → 2 * (a.tdiv b).natAbs ≤ a.natAbs := by
    intro h
    have hb2 : 2 ≤ b.natAbs := by
      by_contra hc
      have : b.natAbs = 1 := by omega
      rw [this, Nat.mod_one] at hm
      omega
    have := Nat.mul_le_mul_right (a.natAbs / b.natAbs) hb2
    rw [hq]
    omega
  refine ⟨?_, by omega, htwo, ?_, ?_, ?_⟩
  · split
    · rename_i h
      have := htwo h
      have hm0 : a.natAbs ≠ 0 := by
        intro h0
        rw [h0, Nat.zero_mod] at hm
        omega
      omega
    · omega
  · intro h h0
    have h5 : a.natAbs / b.natAbs = a.natAbs := by omega
    by_contra hc
    have hb2 : 2 ≤ b.natAbs := by omega
    have := Nat.div_lt_self (n := a.natAbs) (k := b.natAbs) (by omega) hb2
    omega
  · intro hs
    rw [tdiv_abs]
    unfold SameSign at hs
    by_cases ha0 : a = 0
    · subst ha0
      simp
    · have : (decide (a < 0) != decide (b < 0)) = false := by
        rcases hs with ⟨s1, s2⟩ | ⟨s1, s2⟩
        · have c1 : ¬ a < 0 := by omega
          have c2 : ¬ b < 0 := by omega
          simp [c1, c2]
        · have c1 : a < 0 := by omega
          simp [c1, s2]
      rw [this, if_neg (by decide)]
      omega
  · intro hs
    rw [tdiv_abs]
    unfold SameSign at hs
    have : (decide (a < 0) != decide (b < 0)) = true := by
      rcases Int.lt_or_gt_of_ne hb with s2 | s2
      · have c1 : ¬ a < 0 := by omega
        simp [c1, s2]
      · have c1 : a < 0 := by omega
        have c2 : ¬ b < 0 := by omega
        simp [c1, c2]
    rw [this, if_pos rfl]
    omega

theorem level_bits (T : NType) : T.bits < 32 ∨ T.bits = 32 ∨ 64 ≤ T.bits := by
  have e : T.bits = 8 * 2 ^ T.level := rfl
  rcases Nat.lt_or_ge T.level 2 with h | h
  · left
    have : 2 ^ T.level ≤ 2 ^ 1 := Nat.pow_le_pow_right (by decide) (by omega)
    omega
  · right
    rcases Nat.eq_or_lt_of_le h with h | h
    · left; rw [e, ← h]; rfl
    · right
      have : 2 ^ 3 ≤ 2 ^ T.level := Nat.pow_le_pow_right (by decide) h
      omega

end ELC.Native
