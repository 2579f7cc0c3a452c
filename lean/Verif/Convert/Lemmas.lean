import Verif.Convert.Model
import Verif.Convert.Spec
import Verif.Ubig.Props
import Verif.Bits.Props
import Verif.Bigfloat.Props
import Mathlib.Tactic.Linarith
/-! Helper lemmas for conversions to native integers. -/
namespace ELC.Convert
open Spec (Fits Cast)
open Ubig.Spec (Stores)

theorem NType.bits_pos (T : NType) : 8 ≤ T.bits := by
  have : 0 < 2 ^ T.level := Nat.pow_pos (by decide)
  show 8 ≤ 8 * 2 ^ T.level
  omega

theorem pow_half {b : Nat} (h : 0 < b) : (2 : Int) ^ b = 2 * 2 ^ (b - 1) := by
  obtain ⟨n, rfl⟩ : ∃ n, b = n + 1 := ⟨b - 1, by omega⟩
  rw [Nat.add_sub_cancel, pow_succ, mul_comm]

theorem pow_half_nat {b : Nat} (h : 0 < b) : (2 : Nat) ^ b = 2 * 2 ^ (b - 1) := by
  obtain ⟨n, rfl⟩ : ∃ n, b = n + 1 := ⟨b - 1, by omega⟩
  rw [Nat.add_sub_cancel, pow_succ, mul_comm]

theorem castTo_cast (T : NType) (v : Int) : Cast T.signed T.bits v (castTo T v) := by
  have h8 := T.bits_pos
  have hh := pow_half (b := T.bits) (by omega)
  have hp : (0 : Int) < 2 ^ (T.bits - 1) := by positivity
  have h1 := Int.emod_nonneg v (b := 2 ^ T.bits) (by positivity)
  have h2 := Int.emod_lt_of_pos v (b := 2 ^ T.bits) (by positivity)
  have hm : v % 2 ^ T.bits ≡ v [ZMOD 2 ^ T.bits] := Int.mod_modEq _ _
  unfold castTo Cast Fits
  cases T.signed
  · simp only [Bool.false_and, Bool.false_eq_true, if_false]
    exact ⟨⟨h1, h2⟩, hm⟩
  · simp only [Bool.true_and, if_true]
    by_cases h : (2 : Int) ^ (T.bits - 1) ≤ v % 2 ^ T.bits
    · rw [if_pos (by simpa using h)]
      refine ⟨⟨by omega, by omega⟩, ?_⟩
      have : v % 2 ^ T.bits - 2 ^ T.bits ≡ v % 2 ^ T.bits [ZMOD 2 ^ T.bits] := by
        unfold Int.ModEq
        rw [Int.sub_emod, Int.emod_self, sub_zero, Int.emod_emod_of_dvd _ (dvd_refl _),
          Int.emod_emod_of_dvd _ (dvd_refl _)]
      exact this.trans hm
    · rw [if_neg (by simpa using h)]
      exact ⟨⟨by omega, by omega⟩, hm⟩

theorem cast_unique {s : Bool} {b : Nat} (hb : 0 < b) {v r r' : Int} (h : Cast s b v r) (h' : Cast s b v r') :
    r = r' := by
  have hh := pow_half hb
  have hd : (2 : Int) ^ b ∣ r - r' := Int.ModEq.dvd (h'.2.trans h.2.symm)
  obtain ⟨k, hk⟩ := hd
  have h1 := h.1
  have h2 := h'.1
  have hp : (0 : Int) < 2 ^ b := by positivity
  have hlt : -2 ^ b < r - r' ∧ r - r' < 2 ^ b := by
    unfold Fits at h1 h2
    cases s
    · simp only [Bool.false_eq_true, if_false] at h1 h2; omega
    · simp only [if_true] at h1 h2; omega
  have : k = 0 := by
    rw [hk] at hlt
    have a1 : k < 1 := by
      by_contra hc
      nlinarith
    have a2 : -1 < k := by
      by_contra hc
      nlinarith
    omega
  subst this
  omega

theorem castTo_eq (T : NType) {v r : Int} (h : Cast T.signed T.bits v r) : castTo T v = r :=
  cast_unique (by have := T.bits_pos; omega) (castTo_cast T v) h

theorem castTo_fits (T : NType) {v : Int} (h : Fits T.signed T.bits v) : castTo T v = v :=
  castTo_eq T ⟨h, Int.ModEq.refl _⟩

/-- Only the remainder counts. -/
theorem castTo_congr (T : NType) {v v' : Int} (h : v ≡ v' [ZMOD 2 ^ T.bits]) : castTo T v = castTo T v' :=
  castTo_eq T ⟨(castTo_cast T v').1, (castTo_cast T v').2.trans h.symm⟩

theorem castTo_mod (T : NType) (n : Nat) : castTo T ((n % 2 ^ T.bits : Nat) : Int) = castTo T n := by
  apply castTo_congr
  rw [Int.natCast_mod, Nat.cast_pow]
  exact Int.mod_modEq _ _

theorem negTo_eq (T : NType) (x : Nat) (hx : x ≤ 2 ^ T.bits) (neg : Bool) :
    negTo T x neg = castTo T (if neg then -(x : Int) else x) := by
  unfold negTo
  cases neg
  · rfl
  · rw [if_pos rfl, if_pos rfl]
    by_cases h : 32 ≤ T.bits
    · rw [if_pos h, castTo_mod]
      apply castTo_congr
      rw [Nat.cast_sub hx, Nat.cast_pow]
      unfold Int.ModEq
      rw [show (((2 : Nat) : Int) ^ T.bits - (x : Int)) = -(x : Int) + 2 ^ T.bits by push_cast; ring,
        Int.add_emod, Int.emod_self, add_zero, Int.emod_emod_of_dvd _ (dvd_refl _)]
    · rw [if_neg h, zero_sub]

theorem max_lt (T : NType) : T.max < 2 ^ T.bits ∧ 2 ^ (T.bits - 1) ≤ T.max + 1 := by
  have h8 := T.bits_pos
  have hh := pow_half_nat (b := T.bits) (by omega)
  have hp : 0 < 2 ^ (T.bits - 1) := Nat.pow_pos (by decide)
  unfold NType.max
  cases T.signed <;> simp only [Bool.false_eq_true, if_false, if_true] <;> omega

theorem fits_nat (T : NType) (n : Nat) : Fits T.signed T.bits (n : Int) ↔ n ≤ T.max := by
  have hp : 0 < 2 ^ (T.bits - 1) := Nat.pow_pos (by decide)
  have hp' : 0 < 2 ^ T.bits := Nat.pow_pos (by decide)
  have e : ((2 ^ (T.bits - 1) : Nat) : Int) = 2 ^ (T.bits - 1) := by push_cast; rfl
  have e' : ((2 ^ T.bits : Nat) : Int) = 2 ^ T.bits := by push_cast; rfl
  unfold Fits NType.max
  cases T.signed
  · simp only [Bool.false_eq_true, if_false]
    omega
  · simp only [if_true]
    omega

theorem fits_neg (T : NType) (n : Nat) (hn : 0 < n) :
    Fits T.signed T.bits (-(n : Int)) ↔ T.signed = true ∧ n ≤ 2 ^ (T.bits - 1) := by
  have hp : 0 < 2 ^ (T.bits - 1) := Nat.pow_pos (by decide)
  have e : ((2 ^ (T.bits - 1) : Nat) : Int) = 2 ^ (T.bits - 1) := by push_cast; rfl
  unfold Fits
  cases T.signed
  · simp only [Bool.false_eq_true, if_false, false_and, iff_false]
    omega
  · simp only [if_true, true_and]
    omega

/-- Against a number at the upper end of a type the comparison tells "greater" rightly. -/
theorem cmpNative_gt {w t : Nat} (hw : 0 < w) (ht : 0 < t) {l : List Nat} {x n : Nat} (h : Stores w l x) (hn : n < 2 ^ t)
    (hn' : 2 ^ (t - 1) ≤ n + 1) : Ubig.cmpNative w t l n = .gt ↔ n < x := by
  rcases Nat.lt_or_ge l.length ((t + w - 1) / w) with hl | hl
  · rw [Ubig.cmp_native_characterised hw h hn, if_pos hl]
    have h1 := Ubig.val_lt h.1
    rw [h.3, ← pow_mul] at h1
    have h2 : w * l.length ≤ t - 1 := by
      have h3 := Nat.div_mul_le_self (t + w - 1) w
      have h4 : (l.length + 1) * w ≤ (t + w - 1) / w * w := Nat.mul_le_mul_right _ hl
      rw [Nat.add_mul, Nat.one_mul, Nat.mul_comm] at h4
      omega
    have h5 := Nat.pow_le_pow_right (n := 2) (by decide) h2
    simp only [reduceCtorEq, false_iff]
    omega
  · exact (Ubig.cmp_native_partial hw h hn hl).1

theorem maxBytes_eq (T : NType) : maxBytes T = 2 ^ T.level := by
  have h8 := T.bits_pos
  have hm := max_lt T
  have hb := Bits.get_bitnum_correct T.level T.max hm.1
  obtain ⟨b1, -, b3⟩ := hb
  have hne : T.max ≠ 0 := by
    have : 2 ^ 1 ≤ 2 ^ (T.bits - 1) := Nat.pow_le_pow_right (by decide) (by omega)
    omega
  have b4 := b3 hne
  have e : T.bits = 8 * 2 ^ T.level := rfl
  unfold maxBytes
  set g := Bits.getBitnum T.level T.max with hg
  have hu : g ≤ T.bits := by
    by_contra hc
    have : 2 ^ T.bits ≤ 2 ^ (g - 1) := Nat.pow_le_pow_right (by decide) (by omega)
    omega
  have hl : T.bits - 1 ≤ g := by
    by_contra hc
    have h1 : 2 ^ (g + 1) ≤ 2 ^ (T.bits - 1) := Nat.pow_le_pow_right (by decide) (by omega)
    have h2 : 2 ^ (g + 1) = 2 * 2 ^ g := by rw [pow_succ, Nat.mul_comm]
    have h3 : 0 < 2 ^ g := Nat.pow_pos (by decide)
    omega
  omega

end ELC.Convert
