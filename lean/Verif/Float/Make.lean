import Verif.Float.Lemmas
import Verif.Float.Spec
/-! `make_float` is truncation; decomposition gives the units. -/
namespace ELC.Float

open Spec (Format)

/-- The constants of the code describe the format. -/
structure Agrees (I : Info) (f : Format) : Prop where
  width : I.width = f.width
  mask : I.mask = 2 ^ f.p - 1
  base : I.base = 2 ^ f.p
  bit : I.bit = f.p
  diff : I.diff = f.bias
  emin : I.emin = 1 - f.bias
  emax : I.emax = f.bias
  expMask : I.expMask = 2 ^ (f.width - 1) - 1
  room : f.p + 2 ≤ f.width
  expWidth : 2 ^ (f.width - 1 - f.p) = 2 * (f.bias + 1)
  expField : f.width - 1 - f.p ≤ I.expBits
  expSigned : f.bias < 2 ^ (I.expBits - 1)
  expPos : 0 < I.expBits
  biasPos : 0 < f.bias
  large : 23 ≤ f.p ∧ 127 ≤ f.bias

variable {I : Info} {f : Format}

/-- Exponent of one, in units: one is `2^K` units. -/
def Kof (f : Format) : Nat := f.p + f.bias - 1

theorem scale_bounds {n : Nat} (hn : n ≠ 0) {z : Int} (h : 0 ≤ (bitnum n : Int) - 1 + z) :
    2 ^ ((bitnum n : Int) - 1 + z).toNat ≤ scale n z ∧ scale n z < 2 ^ (((bitnum n : Int) - 1 + z).toNat + 1) := by
  obtain ⟨h1, h2⟩ := bitnum_bounds hn
  have h0 := bitnum_pos hn
  generalize bitnum n = L at *
  unfold scale
  split
  · rename_i hz
    obtain ⟨t, rfl⟩ := Int.eq_ofNat_of_zero_le hz
    have e : ((L : Int) - 1 + t).toNat = (L - 1) + t := by omega
    rw [e, Int.toNat_natCast, show L - 1 + t + 1 = L + t by omega, pow_add, pow_add]
    exact ⟨Nat.mul_le_mul_right _ h1, Nat.mul_lt_mul_of_pos_right h2 (Nat.two_pow_pos t)⟩
  · rename_i hz
    obtain ⟨t, ht⟩ : ∃ t : Nat, z = -t := ⟨(-z).toNat, by omega⟩
    subst ht
    have e : ((L : Int) - 1 + -(t : Int)).toNat = (L - 1) - t := by omega
    rw [e, show (-(-(t : Int))).toNat = t by omega]
    constructor
    · rw [Nat.le_div_iff_mul_le (Nat.two_pow_pos t), ← pow_add, show L - 1 - t + t = L - 1 by omega]; exact h1
    · rw [Nat.div_lt_iff_lt_mul (Nat.two_pow_pos t), ← pow_add, show L - 1 - t + 1 + t = L by omega]; exact h2

theorem scale_div (n : Nat) (z : Int) (b : Nat) : scale n z / 2 ^ b = scale n (z - b) := by
  have hb : 0 < 2 ^ b := Nat.two_pow_pos b
  unfold scale
  by_cases hz : 0 ≤ z
  · rw [if_pos hz]
    obtain ⟨t, rfl⟩ := Int.eq_ofNat_of_zero_le hz
    by_cases h : 0 ≤ (t : Int) - b
    · rw [if_pos h, Int.toNat_natCast]
      have e : ((t : Int) - b).toNat = t - b := by omega
      rw [e]
      apply Nat.div_eq_of_eq_mul_left hb
      rw [Nat.mul_assoc, ← pow_add, show t - b + b = t by omega]
    · rw [if_neg h, Int.toNat_natCast]
      have e : (-((t : Int) - b)).toNat = b - t := by omega
      rw [e]
      have : 2 ^ b = 2 ^ t * 2 ^ (b - t) := by rw [← pow_add, show t + (b - t) = b by omega]
      rw [this, Nat.mul_comm n, Nat.mul_div_mul_left _ _ (Nat.two_pow_pos t)]
  · rw [if_neg hz, if_neg (by omega), Nat.div_div_eq_div_mul, ← pow_add]
    congr 2; omega

theorem scale_eq_zero_of {n : Nat} {z : Int} (h : (bitnum n : Int) + z ≤ 0) : scale n z = 0 := by
  unfold scale
  split
  · have hb : bitnum n = 0 := by omega
    have : n = 0 := by
      by_contra hc; have := bitnum_pos hc; omega
    rw [this]; simp
  · apply Nat.div_eq_of_lt
    exact lt_of_bitnum_le (by omega)

theorem trunc_small {p x : Nat} (h : x < 2 ^ (p + 1)) : trunc p x = x := by
  have : Nat.log2 x - p = 0 := by
    by_cases hx : x = 0
    · subst hx; simp
    · have := (Nat.pow_lt_pow_iff_right (by norm_num : 1 < 2)).1 (Nat.lt_of_le_of_lt (log2_bounds hx).1 h)
      omega
  unfold trunc
  rw [this]; simp

/-- The first step of `make_float`: exactly `p+1` significant bits. -/
theorem normalise (h : Agrees I f) {n : Nat} (hn : n ≠ 0) (hlt : n < 2 ^ f.width) {shift : Int}
    (hs : shift = f.p + 1 - bitnum n) :
    (if 0 < shift then (n <<< shift.toNat) % 2 ^ I.width else if shift < 0 then n >>> (-shift).toNat else n) =
      scale n shift ∧ 2 ^ f.p ≤ scale n shift ∧ scale n shift < 2 ^ (f.p + 1) := by
  have hb := scale_bounds hn (z := shift) (by omega)
  have e : ((bitnum n : Int) - 1 + shift).toNat = f.p := by omega
  rw [e] at hb
  refine ⟨?_, hb⟩
  have hW : 2 ^ (f.p + 1) ≤ 2 ^ f.width := Nat.pow_le_pow_right (by norm_num) (by have := h.room; omega)
  by_cases h1 : 0 < shift
  · rw [if_pos h1, Nat.shiftLeft_eq]
    have hv : scale n shift = n * 2 ^ shift.toNat := by unfold scale; rw [if_pos (by omega)]
    rw [h.width, ← hv, Nat.mod_eq_of_lt (by omega)]
  · rw [if_neg h1]
    by_cases h2 : shift < 0
    · rw [if_pos h2, Nat.shiftRight_eq_div_pow]
      unfold scale; rw [if_neg (by omega)]
    · rw [if_neg h2]
      have : shift = 0 := by omega
      rw [this]; simp [scale]

/-- The data word put together from exponent and significand. -/
theorem combine {p s y : Nat} (h1 : 2 ^ p ≤ y) (h2 : y < 2 ^ (p + 1)) :
    (y - 2 ^ p) ||| ((s + 1) * 2 ^ p) = s * 2 ^ p + y := by
  rw [pow_succ] at h2
  rw [Nat.or_comm, Nat.mul_comm, ← Nat.two_pow_add_eq_or_of_lt (show y - 2 ^ p < 2 ^ p by omega)]
  have : 2 ^ p * (s + 1) = s * 2 ^ p + 2 ^ p := by ring
  omega

theorem makeFloat_eq (h : Agrees I f) {n : Nat} (hn : n ≠ 0) (hlt : n < 2 ^ f.width) {e : Int} :
    makeFloat I n e =
      if f.width ≤ (1 - f.bias : Int) - (e + bitnum n - 1) then .undefined
      else if (f.bias : Int) < e + bitnum n - 1 then .done 0
      else .done (trunc f.p (scale n (e + Kof f))) := by
  have hl := countlZero_eq (k := I.k) (n := n) (by
    have := h.width; unfold Info.width at this; rw [this]; exact hlt)
  have hbp := bitnum_pos hn
  have hKb : (Kof f : Int) = f.p + f.bias - 1 := by unfold Kof; have := h.biasPos; omega
  have hr := h.room
  have hbias := h.biasPos
  have hwid : Bits.bitsOf I.k = I.width := rfl
  have hs : (Bits.countlZero I.k n : Int) - (I.width - (I.bit + 1)) = f.p + 1 - bitnum n := by
    rw [h.bit, h.width]; rw [hwid, h.width] at hl; omega
  obtain ⟨n1, n2, n3⟩ := normalise h hn hlt rfl
  unfold makeFloat
  dsimp only
  rw [hs, n1, h.bit, h.width, h.emin, h.emax, h.base, h.diff]
  have he : e - ((f.p : Int) + 1 - bitnum n) + f.p = e + bitnum n - 1 := by omega
  rw [he]
  by_cases hsm : e + bitnum n - 1 < 1 - (f.bias : Int)
  · simp only [hsm, true_and, if_true]
    by_cases hu : (f.width : Int) ≤ 1 - f.bias - (e + bitnum n - 1)
    · rw [if_pos hu, if_pos hu]
    · rw [if_neg hu, if_neg hu]
      rw [if_neg (show ¬ (f.bias : Int) < e + bitnum n - 1 by omega)]
      obtain ⟨t, ht⟩ : ∃ t : Nat, 1 - (f.bias : Int) - (e + bitnum n - 1) = t :=
        ⟨(1 - (f.bias : Int) - (e + bitnum n - 1)).toNat, by omega⟩
      rw [ht, Int.toNat_natCast, Nat.shiftRight_eq_div_pow, scale_div]
      have hz : (f.p : Int) + 1 - bitnum n - t = e + Kof f := by omega
      rw [hz]
      have hx : scale n (e + Kof f) < 2 ^ f.p := by
        rw [← hz, ← scale_div, Nat.div_lt_iff_lt_mul (Nat.two_pow_pos t)]
        refine Nat.lt_of_lt_of_le n3 ?_
        rw [← pow_add]; exact Nat.pow_le_pow_right (by norm_num) (by omega)
      have hx' : scale n (e + Kof f) < 2 ^ (f.p + 1) := by rw [pow_succ]; omega
      rw [trunc_small hx']
      split
      · rename_i h0; rw [h0]
      · rw [if_neg (by omega), if_pos (by rw [Nat.shiftRight_eq_div_pow]; exact Nat.div_eq_of_lt hx)]
  · have hsm' : ¬ (e + bitnum n - 1 < 1 - (f.bias : Int)) := hsm
    simp only [hsm', false_and, if_false]
    rw [if_neg (show ¬ (f.width : Int) ≤ 1 - f.bias - (e + bitnum n - 1) by omega)]
    by_cases hov : (f.bias : Int) < e + bitnum n - 1
    · rw [if_pos (by omega), if_pos hov]
    · rw [if_neg (by omega), if_neg hov]
      have hne : ¬ scale n ((f.p : Int) + 1 - bitnum n) >>> f.p = 0 := by
        rw [Nat.shiftRight_eq_div_pow]
        have := Nat.div_pos n2 (Nat.two_pow_pos f.p)
        omega
      rw [if_neg hne]
      obtain ⟨s, hs'⟩ : ∃ s : Nat, e + bitnum n - 1 = s + (1 - (f.bias : Int)) :=
        ⟨(e + bitnum n - 1 - (1 - (f.bias : Int))).toNat, by omega⟩
      have hb2 := scale_bounds hn (z := e + Kof f) (by omega)
      have hlog : Nat.log2 (scale n (e + Kof f)) = s + f.p := by
        rw [log2_eq hb2.1 hb2.2]; omega
      unfold trunc
      rw [hlog, Nat.add_sub_cancel, scale_div]
      have hz : e + (Kof f : Int) - s = (f.p : Int) + 1 - bitnum n := by omega
      rw [hz]
      have hexp : s + 1 < 2 ^ (f.width - 1 - f.p) := by rw [h.expWidth]; omega
      have hx : ((e + bitnum n - 1 + f.bias) % 2 ^ I.expBits).toNat = s + 1 := by
        have h2 : (2 : Nat) ^ (f.width - 1 - f.p) ≤ 2 ^ I.expBits := Nat.pow_le_pow_right (by norm_num) h.expField
        rw [hs', show (s : Int) + (1 - f.bias) + f.bias = ((s + 1 : Nat) : Int) by omega]
        rw [show (2 : Int) ^ I.expBits = ((2 ^ I.expBits : Nat) : Int) by push_cast; rfl, ← Int.natCast_mod,
          Int.toNat_natCast, Nat.mod_eq_of_lt (by omega)]
      rw [hx, Nat.shiftLeft_eq, Nat.mod_eq_of_lt, combine n2 n3]
      have : 2 ^ f.width = 2 ^ (f.width - 1 - f.p) * 2 ^ (f.p + 1) := by
        rw [← pow_add]; congr 1; omega
      rw [this, pow_succ]
      have := Nat.two_pow_pos f.p
      calc (s + 1) * 2 ^ f.p < 2 ^ (f.width - 1 - f.p) * 2 ^ f.p := Nat.mul_lt_mul_of_pos_right hexp this
        _ ≤ _ := Nat.mul_le_mul_left _ (by omega)

theorem bitnum_zero : bitnum 0 = 0 := by simp [bitnum]

theorem makeFloat_zero (h : Agrees I f) (e : Int) :
    makeFloat I 0 e = if f.width ≤ (1 - f.bias : Int) - (e - 1) then .undefined else .done 0 := by
  have hl := countlZero_eq (k := I.k) (n := 0) (Nat.two_pow_pos _)
  have hr := h.room
  have hwid : Bits.bitsOf I.k = I.width := rfl
  have hs : (Bits.countlZero I.k 0 : Int) - (I.width - (I.bit + 1)) = f.p + 1 := by
    rw [h.bit, h.width]; rw [hwid, h.width, bitnum_zero] at hl; omega
  unfold makeFloat
  dsimp only
  rw [hs, h.bit, h.width, h.emin, h.emax]
  have h0 : (if 0 < (f.p : Int) + 1 then (0 <<< ((f.p : Int) + 1).toNat) % 2 ^ f.width
      else if (f.p : Int) + 1 < 0 then 0 >>> (-((f.p : Int) + 1)).toNat else 0) = 0 := by simp
  rw [h0, show e - ((f.p : Int) + 1) + f.p = e - 1 by omega]
  by_cases hsm : e - 1 < 1 - (f.bias : Int)
  · simp only [hsm, true_and, if_true, Nat.zero_shiftRight]
  · simp only [hsm, false_and, if_false, Nat.zero_shiftRight, if_true]
    rw [if_neg (show ¬ (f.width : Int) ≤ 1 - f.bias - (e - 1) by omega)]
    split <;> rfl

end ELC.Float
