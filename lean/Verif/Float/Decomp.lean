import Verif.Float.Value
/-! What `get_precision`, `get_exponent` and `make_float` compute. -/
namespace ELC.Float

open Spec

variable {I : Info} {f : Format}

theorem toSigned_sub (b : Nat) (x y : Int) : toSigned b (toSigned b x - y) = toSigned b (x - y) := by
  unfold toSigned
  congr 1
  rw [show (x + 2 ^ (b - 1)) % 2 ^ b - 2 ^ (b - 1) - y + 2 ^ (b - 1) = (x + 2 ^ (b - 1)) % 2 ^ b - y by ring,
    Int.emod_sub_emod, show x - y + 2 ^ (b - 1) = x + 2 ^ (b - 1) - y by ring]

theorem toSigned_id {b : Nat} (hb : 0 < b) {z : Int} (h1 : -2 ^ (b - 1) ≤ z) (h2 : z < 2 ^ (b - 1)) : toSigned b z = z := by
  unfold toSigned
  have : (2 : Int) ^ b = 2 * 2 ^ (b - 1) := by
    obtain ⟨c, rfl⟩ : ∃ c, b = c + 1 := ⟨b - 1, by omega⟩
    rw [Nat.add_sub_cancel, pow_succ]; ring
  rw [Int.emod_eq_of_lt (by omega) (by omega)]
  ring

theorem nativePrecision_eq (h : Agrees I f) (d : Nat) : nativePrecision I d = fraction f d := by
  unfold nativePrecision fraction
  rw [h.mask, Nat.and_two_pow_sub_one_eq_mod]

theorem field_lt (f : Format) (d : Nat) : field f d < 2 ^ (f.width - 1 - f.p) := Nat.mod_lt _ (Nat.two_pow_pos _)

theorem baseExponent_eq (h : Agrees I f) (d : Nat) : baseExponent I d = field f d := by
  unfold baseExponent
  rw [h.expMask, Nat.and_two_pow_sub_one_eq_mod, h.bit, Nat.shiftRight_eq_div_pow, (mod_field f d h.room).1,
    Nat.mod_eq_of_lt]
  exact Nat.lt_of_lt_of_le (field_lt f d) (Nat.pow_le_pow_right (by norm_num) h.expField)

theorem getPrecision_eq (h : Agrees I f) (d : Nat) :
    getPrecision I d = (if field f d = 0 then fraction f d else 2 ^ f.p + fraction f d) := by
  have hlt : fraction f d < 2 ^ f.p := Nat.mod_lt _ (Nat.two_pow_pos _)
  have hW : 2 ^ (f.p + 1) ≤ 2 ^ f.width := Nat.pow_le_pow_right (by norm_num) (by have := h.room; omega)
  rw [pow_succ] at hW
  unfold getPrecision baseNum
  rw [nativePrecision_eq h, baseExponent_eq h, h.width, h.base]
  by_cases h0 : field f d = 0
  · rw [if_neg (by omega), if_pos h0, Nat.mod_eq_of_lt (by omega)]; omega
  · rw [if_pos h0, if_neg h0, Nat.mod_eq_of_lt (by omega)]; omega

theorem getPrecision_lt (h : Agrees I f) (d : Nat) : getPrecision I d < 2 ^ (f.p + 1) := by
  have hlt : fraction f d < 2 ^ f.p := Nat.mod_lt _ (Nat.two_pow_pos _)
  rw [getPrecision_eq h, pow_succ]
  split <;> omega

theorem getExponent_eq (h : Agrees I f) {d : Nat} (hd : Finite f d) :
    getExponent I d = (if field f d = 0 then 1 else (field f d : Int)) - f.bias - f.p := by
  have hpos := h.biasPos
  have hs : (f.bias : Int) < 2 ^ (I.expBits - 1) := by exact_mod_cast h.expSigned
  have hf := field_lt f d
  unfold Finite at hd
  rw [h.expWidth] at hf hd
  unfold getExponent nativeExponent
  dsimp only
  rw [baseExponent_eq h, h.bit, h.emin, h.diff]
  split
  · rw [toSigned_id h.expPos (by omega) (by omega)]
  · rw [toSigned_sub, toSigned_id h.expPos (by omega) (by omega)]

theorem decompose_eq (h : Agrees I f) {d : Nat} (hd : Finite f d) :
    (getPrecision I d : ℚ) * 2 ^ getExponent I d = magnitude f d := by
  rw [getPrecision_eq h, getExponent_eq h hd]
  unfold magnitude
  split
  · rfl
  · push_cast; rfl

theorem scaled_bounds {n : Nat} (hn : n ≠ 0) (e : ℤ) :
    (2 : ℚ) ^ (e + bitnum n - 1) ≤ n * 2 ^ e ∧ (n : ℚ) * 2 ^ e < 2 ^ (e + bitnum n) := by
  obtain ⟨h1, h2⟩ := bitnum_bounds hn
  have h0 := bitnum_pos hn
  have hp := two_zpow_pos e
  constructor
  · rw [show e + (bitnum n : ℤ) - 1 = ((bitnum n - 1 : Nat) : ℤ) + e by omega, two_zpow_add, two_zpow_nat]
    exact mul_le_mul_of_nonneg_right (by exact_mod_cast h1) hp.le
  · rw [add_comm, two_zpow_add, two_zpow_nat]
    exact mul_lt_mul_of_pos_right (by exact_mod_cast h2) hp

theorem zpow_lt_iff {a b : ℤ} : (2 : ℚ) ^ a < 2 ^ b ↔ a < b := zpow_lt_zpow_iff_right₀ (by norm_num)
theorem zpow_le_iff {a b : ℤ} : (2 : ℚ) ^ a ≤ 2 ^ b ↔ a ≤ b := zpow_le_zpow_iff_right₀ (by norm_num)

theorem makeFloat_undefined (h : Agrees I f) {n : Nat} (hn : n ≠ 0) (hlt : n < 2 ^ f.width) {e : ℤ}
    (hq : (n : ℚ) * 2 ^ e < 2 ^ (2 - f.bias - f.width : ℤ)) : makeFloat I n e = .undefined := by
  have := zpow_lt_iff.1 (lt_of_le_of_lt (scaled_bounds hn e).1 hq)
  rw [makeFloat_eq h hn hlt, if_pos (by omega)]

theorem makeFloat_overflow (h : Agrees I f) {n : Nat} (hlt : n < 2 ^ f.width) {e : ℤ}
    (hq : (2 : ℚ) ^ (f.bias + 1 : ℤ) ≤ n * 2 ^ e) : makeFloat I n e = .done 0 := by
  have hn : n ≠ 0 := by
    intro h0; subst h0
    have := two_zpow_pos (f.bias + 1 : ℤ)
    simp at hq; linarith
  have := zpow_lt_iff.1 (lt_of_le_of_lt hq (scaled_bounds hn e).2)
  have := h.biasPos
  rw [makeFloat_eq h hn hlt, if_neg (by omega), if_pos (by omega)]

theorem makeFloat_down (h : Agrees I f) {n : Nat} (hlt : n < 2 ^ f.width) {e : ℤ}
    (hq : (2 : ℚ) ^ (2 - f.bias - f.width : ℤ) ≤ n * 2 ^ e) (hq' : (n : ℚ) * 2 ^ e < 2 ^ (f.bias + 1 : ℤ)) :
    ∃ r, makeFloat I n e = .done r ∧ Down f (n * 2 ^ e) r := by
  have hn : n ≠ 0 := by
    intro h0; subst h0
    have := two_zpow_pos (2 - f.bias - f.width : ℤ)
    simp at hq; linarith
  have a := zpow_lt_iff.1 (lt_of_le_of_lt hq (scaled_bounds hn e).2)
  have b := zpow_lt_iff.1 (lt_of_le_of_lt (scaled_bounds hn e).1 hq')
  refine ⟨_, by rw [makeFloat_eq h hn hlt, if_neg (by omega), if_neg (by omega)], ?_⟩
  have hs := scale_spec n (e + Kof f)
  rw [two_zpow_add, ← mul_assoc] at hs
  apply down_trunc h hs.1 hs.2
  have : (n : ℚ) * 2 ^ e * 2 ^ (Kof f : ℤ) < 2 ^ (f.bias + 1 : ℤ) * 2 ^ (Kof f : ℤ) :=
    mul_lt_mul_of_pos_right hq' (two_zpow_pos _)
  rw [← two_zpow_add] at this
  have h3 := lt_of_le_of_lt hs.1 this
  rw [show (f.bias + 1 + Kof f : ℤ) = ((f.bias + 1 + Kof f : Nat) : ℤ) by push_cast; rfl, two_zpow_nat] at h3
  exact_mod_cast h3

/-- A number that is in the format is rounded down to itself. -/
theorem down_self {q : ℚ} {d : Nat} (hd : Plain f d) (hq : q = magnitude f d) : Down f q d :=
  ⟨hd, hq.ge, fun _ _ hle => by rwa [← hq]⟩

theorem magnitude_pos_ge (h : Agrees I f) {d : Nat} (hd : Plain f d) (h0 : d ≠ 0) :
    (2 : ℚ) ^ (-(Kof f : ℤ)) ≤ magnitude f d := by
  rw [magnitude_plain h hd.1]
  have : 1 ≤ units f.p d := by
    have := units_lt (p := f.p) (Nat.pos_of_ne_zero h0)
    omega
  have hc : (1 : ℚ) ≤ units f.p d := by exact_mod_cast this
  calc (2 : ℚ) ^ (-(Kof f : ℤ)) = 1 * 2 ^ (-(Kof f : ℤ)) := by ring
    _ ≤ _ := mul_le_mul_of_nonneg_right hc (two_zpow_pos _).le

theorem magnitude_lt (h : Agrees I f) {d : Nat} (hd : Plain f d) : magnitude f d < 2 ^ (f.bias + 1 : ℤ) := by
  rw [magnitude_plain h hd.1]
  have := units_lt (p := f.p) ((plain_iff h d).1 hd)
  rw [units_top h] at this
  have hc : (units f.p d : ℚ) < ((2 ^ (f.bias + 1 + Kof f) : Nat) : ℚ) := by exact_mod_cast this
  rw [← two_zpow_nat] at hc
  calc _ < (2 : ℚ) ^ ((f.bias + 1 + Kof f : Nat) : ℤ) * 2 ^ (-(Kof f : ℤ)) := mul_lt_mul_of_pos_right hc (two_zpow_pos _)
    _ = _ := by rw [← two_zpow_add]; congr 1; push_cast; ring

/-- Exactly representable products come out exactly. -/
theorem makeFloat_exact (h : Agrees I f) {n : Nat} (hlt : n < 2 ^ f.width) {e : ℤ} {d : Nat} (hd : Plain f d)
    (hne : d ≠ 0) (he : (n : ℚ) * 2 ^ e = magnitude f d) : makeFloat I n e = .done d := by
  have h1 := magnitude_pos_ge h hd hne
  have hK : (Kof f : ℤ) = f.p + f.bias - 1 := by unfold Kof; have := h.biasPos; omega
  have hr := h.room
  obtain ⟨r, h2, h3⟩ := makeFloat_down h hlt (e := e)
    (by rw [he]; exact le_trans (zpow_le_iff.2 (by omega)) h1) (by rw [he]; exact magnitude_lt h hd)
  rw [h2, down_unique h h3 (down_self hd he)]

end ELC.Float
