/-
Property C203: memory filled with copies of a value.
-/
import Verif.Fill.Lemmas
import Verif.Float.Spec
import Mathlib.Data.Rat.Floor

namespace ELC.Fill
open Spec

variable {T : Ty} {v mem : List Nat} {n : Nat}

/-- C203 in part.  For integer and character types of every size, and for all types whose size is neither 1 nor 4, filling
stores the value in each element and changes nothing else.  What is missing: other types of size 1 or 4
(`fill_refuted`). -/
theorem fill_partial (hT : T = integer T.size ∨ (T.size ≠ 1 ∧ T.size ≠ 4)) (hv : Value T.size v)
    (hm : n * T.size ≤ mem.length) : ∃ mem', fill T v n mem = some mem' ∧ Filled T.size n v mem mem' := by
  have hs : stored T v = some v := by
    unfold stored
    rcases hT with h | h
    · have hc : T.conv v = some (number v) := by rw [h]; rfl
      have hb : bytes T.size (number v) = v := by rw [← hv.1]; exact bytes_number hv.2
      rw [hc, Option.map_some, hb, ite_self]
    · rw [if_neg (by omega)]
  exact ⟨_, by rw [fill_stored hv.1, hs]; rfl, filled_copies hv.1 hm⟩

/-- Three numbers of eight bytes are overwritten, the byte after them stays. -/
example : fill (integer 8) [1, 2, 0, 0, 0, 0, 0, 0] 2 (List.replicate 17 7) =
    some [1, 2, 0, 0, 0, 0, 0, 0, 1, 2, 0, 0, 0, 0, 0, 0, 7] ∧ Value 8 [1, 2, 0, 0, 0, 0, 0, 0] := by
  refine ⟨by decide +kernel, by decide, by decide⟩

/-- C203, exactly: filling at least one element works iff the size is neither 1 nor 4 or the value, converted to
`unsigned char` or `wchar_t`, has the bits it had before. -/
theorem fill_characterised (hv : Value T.size v) (h0 : 0 < n) (hm : n * T.size ≤ mem.length) :
    (∃ mem', fill T v n mem = some mem' ∧ Filled T.size n v mem mem') ↔
      (T.size = 1 ∨ T.size = 4 → ∃ c, T.conv v = some c ∧ c % 256 ^ T.size = number v) := by
  constructor
  · rintro ⟨mem', h, hf⟩ hs
    rw [fill_stored hv.1, stored, if_pos hs] at h
    obtain ⟨w, hw, rfl⟩ := Option.map_eq_some_iff.1 h
    obtain ⟨c, hc, rfl⟩ := Option.map_eq_some_iff.1 hw
    have he := filled_first (bytes_length _ _) h0 hf
    refine ⟨c, hc, ?_⟩
    rw [← hv.1] at he ⊢
    exact (bytes_eq_iff hv.2 c).1 he
  · intro h
    have hs : stored T v = some v := by
      unfold stored
      by_cases h1 : T.size = 1 ∨ T.size = 4
      · obtain ⟨c, hc, he⟩ := h h1
        rw [if_pos h1, hc, Option.map_some]
        congr 1
        rw [← hv.1] at he ⊢
        exact (bytes_eq_iff hv.2 c).2 he
      · rw [if_neg h1]
    exact ⟨_, by rw [fill_stored hv.1, hs]; rfl, filled_copies hv.1 hm⟩

/-- C203 for `float`, exactly: only with positive zero are the elements stored as the value. -/
theorem fill_float_characterised (hv : Value 4 v) (h0 : 0 < n) (hm : n * 4 ≤ mem.length) :
    (∃ mem', fill float32 v n mem = some mem' ∧ Filled 4 n v mem mem') ↔ v = [0, 0, 0, 0] := by
  have hd : number v < 2 ^ 32 := by
    have := number_bytes v.length (number v)
    rw [bytes_number hv.2, hv.1] at this
    omega
  refine (fill_characterised (T := float32) hv h0 hm).trans ⟨fun h => ?_, fun h _ => ?_⟩
  · obtain ⟨c, hc, he⟩ := h (Or.inr rfl)
    have hr := floatToInt_range hc
    have hcv : c = number v := by
      rw [Nat.mod_eq_of_lt (by simpa [float32] using hr)] at he
      exact he
    have hz : number v = 0 := (floatToInt_fixed hd).1 (by rw [hcv] at hc; exact hc)
    have := bytes_number hv.2
    rw [hz, hv.1] at this
    rw [← this]; decide
  · subst h
    exact ⟨0, by decide +kernel, by decide⟩

example : fill float32 [0, 0, 0, 0] 2 [1, 2, 3, 4, 5, 6, 7, 8, 9] = some [0, 0, 0, 0, 0, 0, 0, 0, 9] := by decide +kernel

/-- C203 refuted: an array made to hold ones of type `float` holds numbers stored as the integer 1. -/
theorem fill_refuted : ¬ ∀ (T : Ty) (v mem : List Nat) (n : Nat), Value T.size v → n * T.size ≤ mem.length →
    ∃ mem', constructArray T .const v n mem = some mem' ∧ Filled T.size n v mem mem' := by
  intro h
  have := (fill_float_characterised (v := [0, 0, 0x80, 0x3f]) (n := 1) (mem := [0, 0, 0, 0]) ⟨by decide, by decide⟩
    (by decide) (by decide)).1 (h float32 _ _ 1 ⟨by decide, by decide⟩ (by decide))
  exact absurd this (by decide)

/-- C203 refuted also for whether there is a result: filling with 2³¹ of type `float` is undefined, even no element. -/
theorem fill_undefined_refuted : fill float32 (bytes 4 0x4F000000) 0 [] = none := by decide +kernel

/-- What `float` elements are filled with is the value cut off towards zero, as an integer. -/
theorem float_cut_characterised {d : Nat} (hd : d < 2 ^ 32) (r : Nat) :
    floatToInt d = some r ↔ Float.Spec.Finite Float.Spec.binary32 d ∧
      ∃ a : Nat, (a : ℤ) = ⌊Float.Spec.magnitude Float.Spec.binary32 d⌋ ∧
        ((d < 2 ^ 31 ∧ a < 2 ^ 31 ∧ r = a) ∨ (2 ^ 31 ≤ d ∧ a ≤ 2 ^ 31 ∧ r = (2 ^ 32 - a) % 2 ^ 32)) := by
  have hfield : Float.Spec.field Float.Spec.binary32 d = d / 2 ^ 23 % 256 := rfl
  have hfrac : Float.Spec.fraction Float.Spec.binary32 d = d % 2 ^ 23 := rfl
  have hfin : Float.Spec.Finite Float.Spec.binary32 d ↔ d / 2 ^ 23 % 256 ≠ 255 := Iff.rfl
  have hm : d % 2 ^ 23 < 2 ^ 23 := Nat.mod_lt _ (by decide)
  have hcut : ⌊Float.Spec.magnitude Float.Spec.binary32 d⌋ = (((if d / 2 ^ 23 % 256 = 0 then 0
      else if d / 2 ^ 23 % 256 < 150 then (2 ^ 23 + d % 2 ^ 23) / 2 ^ (150 - d / 2 ^ 23 % 256)
      else (2 ^ 23 + d % 2 ^ 23) * 2 ^ (d / 2 ^ 23 % 256 - 150) : Nat)) : ℤ) := by
    unfold Float.Spec.magnitude
    rw [hfield, hfrac]
    simp only [Float.Spec.binary32]
    generalize d / 2 ^ 23 % 256 = e
    generalize d % 2 ^ 23 = m at hm
    by_cases h0 : e = 0
    · rw [if_pos h0, if_pos h0, Int.floor_eq_iff]
      constructor
      · push_cast; positivity
      · have : (m : ℚ) < 2 ^ 23 := by exact_mod_cast hm
        have h2 : (2 : ℚ) ^ (1 - (127 : Nat) - (23 : Nat) : ℤ) ≤ (2 ^ 23)⁻¹ := by norm_num
        have h3 : (0 : ℚ) < 2 ^ (1 - (127 : Nat) - (23 : Nat) : ℤ) := by positivity
        calc (m : ℚ) * 2 ^ (1 - (127 : Nat) - (23 : Nat) : ℤ) < 2 ^ 23 * 2 ^ (1 - (127 : Nat) - (23 : Nat) : ℤ) :=
              mul_lt_mul_of_pos_right this h3
          _ ≤ 2 ^ 23 * (2 ^ 23)⁻¹ := mul_le_mul_of_nonneg_left h2 (by positivity)
          _ = ((0 : Nat) : ℤ) + 1 := by norm_num
    · rw [if_neg h0, if_neg h0]
      by_cases h1 : e < 150
      · rw [if_pos h1]
        have he : ((e : ℤ) - (127 : Nat) - (23 : Nat) : ℤ) = -((150 - e : Nat) : ℤ) := by omega
        rw [he, zpow_neg, zpow_natCast, ← div_eq_mul_inv]
        have := Rat.floor_intCast_div_natCast ((2 ^ 23 + m : Nat) : ℤ) (2 ^ (150 - e))
        push_cast at this ⊢
        exact this
      · rw [if_neg h1]
        have he : ((e : ℤ) - (127 : Nat) - (23 : Nat) : ℤ) = ((e - 150 : Nat) : ℤ) := by omega
        rw [he, zpow_natCast]
        have := Int.floor_natCast (R := ℚ) ((2 ^ 23 + m) * 2 ^ (e - 150))
        push_cast at this ⊢
        exact this
  rw [hfin, hcut]
  simp only [floatToInt]
  generalize (if d / 2 ^ 23 % 256 = 0 then _ else _ : Nat) = a
  by_cases he : d / 2 ^ 23 % 256 = 255
  · rw [if_pos he]
    exact ⟨nofun, fun h => absurd he h.1⟩
  · rw [if_neg he]
    by_cases hn : d / 2 ^ 31 = 0
    · rw [if_pos hn]
      have hd1 : d < 2 ^ 31 := by omega
      by_cases ha : a < 2 ^ 31
      · rw [if_pos ha]
        refine ⟨fun h => ⟨he, a, rfl, Or.inl ⟨hd1, ha, (Option.some.inj h).symm⟩⟩, ?_⟩
        rintro ⟨_, b, hb, h | h⟩
        · rw [h.2.2, Int.ofNat.inj hb]
        · omega
      · rw [if_neg ha]
        refine ⟨nofun, ?_⟩
        rintro ⟨_, b, hb, h | h⟩
        · have := Int.ofNat.inj hb; omega
        · omega
    · rw [if_neg hn]
      have hd1 : 2 ^ 31 ≤ d := by omega
      by_cases ha : a ≤ 2 ^ 31
      · rw [if_pos ha]
        refine ⟨fun h => ⟨he, a, rfl, Or.inr ⟨hd1, ha, (Option.some.inj h).symm⟩⟩, ?_⟩
        rintro ⟨_, b, hb, h | h⟩
        · omega
        · rw [h.2.2, Int.ofNat.inj hb]
      · rw [if_neg ha]
        refine ⟨nofun, ?_⟩
        rintro ⟨_, b, hb, h | h⟩
        · omega
        · have := Int.ofNat.inj hb; omega

/-- 2.75 is cut off to 2, -2.75 to -2. -/
example : floatToInt 0x40300000 = some 2 ∧ floatToInt 0xC0300000 = some (2 ^ 32 - 2) := by decide +kernel

/-- C203 for `float`, as numbers: what is stored equals the value iff that is zero. -/
theorem fill_number_characterised {d r : Nat} (hd : d < 2 ^ 32) (h : floatToInt d = some r) :
    SameNumber d r ↔ d % 2 ^ 31 = 0 := by
  constructor
  · rintro (rfl | h1)
    · rw [(floatToInt_fixed hd).1 h]; decide
    · exact h1.1
  · intro h0
    have : d = 0 ∨ d = 2 ^ 31 := by omega
    refine Or.inr ⟨h0, ?_⟩
    rcases this with rfl | rfl
    · cases (show floatToInt 0 = some 0 by decide +kernel).symm.trans h; rfl
    · cases (show floatToInt (2 ^ 31) = some 0 by decide +kernel).symm.trans h; rfl

/-- One is stored as 2⁻¹⁴⁹. -/
example : floatToInt 0x3F800000 = some 1 ∧ ¬ SameNumber 0x3F800000 1 := by
  refine ⟨by decide +kernel, ?_⟩
  unfold SameNumber; omega

/-- Constructing from a variable or a temporary works for every type. -/
theorem construct_other (hv : Value T.size v) (hm : n * T.size ≤ mem.length) :
    ∃ mem', constructArray T .other v n mem = some mem' ∧ Filled T.size n v mem mem' :=
  ⟨_, rfl, by rw [constructLoop_eq T v hv.1 n mem hm]; exact filled_copies hv.1 hm⟩

example : constructArray float32 .other [0, 0, 0x80, 0x3f] 2 [1, 2, 3, 4, 5, 6, 7, 8, 9] =
    some [0, 0, 0x80, 0x3f, 0, 0, 0x80, 0x3f, 9] := by decide +kernel

/-- One object is constructed right, whatever its type. -/
theorem fill_one (hv : Value T.size v) (hm : T.size ≤ mem.length) : Filled T.size 1 v mem (fillOne T v mem) := by
  have h : fillOne T v mem = copies v 1 ++ mem.drop (1 * T.size) := by
    unfold fillOne
    rw [Nat.one_mul]
    simp only [copies, List.append_nil]
    by_cases h : 32 ≤ T.size
    · rw [if_pos h]
      by_cases hz : isAllByteZero v = true
      · rw [if_pos hz, memset]
        have := zeros_eq (isAllByteZero_iff.1 hz)
        rw [hv.1] at this
        rw [← this]
      · rw [if_neg hz]
    · rw [if_neg h]
  rw [h]
  exact filled_copies hv.1 (by omega)

example : fillOne (integer 2) [1, 2] [3, 4, 5] = [1, 2, 5] ∧ Value 2 [1, 2] := ⟨by decide, by decide, by decide⟩

/-- Inserting copies into an array and assigning one value to many elements do what filling does. -/
theorem copy_characterised (hv : Value T.size v) (h0 : 0 < n) (hm : n * T.size ≤ mem.length) :
    (∃ mem', copyArray T v n mem = some mem' ∧ Filled T.size n v mem mem') ↔
      (T.size = 1 ∨ T.size = 4 → ∃ c, T.conv v = some c ∧ c % 256 ^ T.size = number v) :=
  fill_characterised hv h0 hm

end ELC.Fill
