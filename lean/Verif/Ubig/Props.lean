import Verif.Ubig.DivExact
import Verif.Ubig.MulExact
import Verif.Ubig.Shift

/-!
Properties C01 to C12: the unsigned big integer.

`Spec.Stores w l v` (see `Spec.lean`) says that the digit array `l` is the stored form of the number
`v`: digits below `2^w`, no zero digit at the top, positional value `v`.  In every theorem `w` is the
digit width, arbitrary and positive.  `none` is an access outside the storage or an arithmetic
operation without a defined result.
-/
namespace ELC.Ubig
open Spec (val Stores)

/-- A concrete non-trivial stored number, used to show that hypotheses can be met. -/
def sample : List Nat := [7, 0, 9]
theorem sample_stores : Stores 32 sample (7 + 9 * 2 ^ 64) :=
  ⟨by intro d hd; simp [sample] at hd; rcases hd with rfl | rfl | rfl <;> decide,
   by intro d hd; simp [sample] at hd; omega, by decide⟩

/-! ### C01 -/

/-- C01: building from a native `t`-bit value stores exactly that value. -/
theorem from_native_stores {w : Nat} (hw : 0 < w) (t v : Nat) (hv : v < 2 ^ t) :
    ∃ l, ofNative w t v = some l ∧ Stores w l v := ofNative_stores hw t v hv

/-- C01: conversion to a `b`-bit type gives the value modulo `2^b`. -/
theorem to_native {w : Nat} {l : List Nat} {v : Nat} (h : Stores w l v) (b : Nat) :
    convertTo w b l = v % 2 ^ b := by rw [convertTo_val, h.3]

/-- C01: there and back. -/
theorem native_round_trip {w : Nat} (hw : 0 < w) (t b v : Nat) (hv : v < 2 ^ t) :
    ∃ l, ofNative w t v = some l ∧ convertTo w b l = v % 2 ^ b ∧ (t ≤ b → convertTo w b l = v) := by
  obtain ⟨l, h1, h2⟩ := ofNative_stores hw t v hv
  refine ⟨l, h1, to_native h2 b, fun htb => ?_⟩
  rw [to_native h2, Nat.mod_eq_of_lt]
  exact Nat.lt_of_lt_of_le hv (Nat.pow_le_pow_right (by decide) htb)

example : ofNative 32 64 0x1234567890 = some [0x34567890, 0x12] := by decide +kernel
example : convertTo 32 64 [0x34567890, 0x12] = 0x1234567890 := by decide +kernel

/-- C01: every number has one stored form only. -/
theorem stored_form_unique {w : Nat} {a b : List Nat} {v : Nat} (ha : Stores w a v)
    (hb : Stores w b v) : a = b := stores_unique ha hb

/-! ### C02 -/

/-- C02: `==` is equality of values. -/
theorem eq_iff {w : Nat} {a b : List Nat} {x y : Nat} (ha : Stores w a x) (hb : Stores w b y) :
    eq a b = true ↔ x = y := by
  unfold eq
  rw [beq_iff_eq]
  constructor
  · rintro rfl; rw [← ha.3, ← hb.3]
  · rintro rfl; exact stores_unique ha hb

/-- C02: `<=>` is the order of values. -/
theorem cmp_correct {w : Nat} {a b : List Nat} {x y : Nat} (ha : Stores w a x) (hb : Stores w b y) :
    cmp a b = compare x y := cmp_val ha hb

example : cmp [7, 0, 9] [8, 0, 9] = .lt := by decide

/-! ### C03: comparison with a native integer -/

theorem native_step {w x v V : Nat} (hv : x ≤ v) :
    (V ≤ (v - x) / 2 ^ w ↔ x + 2 ^ w * V ≤ v) := by
  rw [Nat.le_div_iff_mul_le (pw w), Nat.mul_comm]; omega

/-- C03, what `==` with a native integer really computes: it accepts every value in a whole block of
`2^(w·size)` numbers starting at the stored one. -/
theorem eq_native_characterised {w : Nat} {l : List Nat} (n : Nat) :
    eqNative w l n = true ↔ val w l ≤ n ∧ n < val w l + (2 ^ w) ^ l.length := by
  induction l generalizing n with
  | nil => simp [eqNative, val]
  | cons x l ih =>
    simp only [eqNative, val, List.length_cons, pow_succ]
    split
    · next h => simp; omega
    · next h =>
      rw [ih, native_step (by omega), Nat.div_lt_iff_lt_mul (pw w)]
      rw [Nat.add_mul, Nat.mul_comm (val w l)]
      omega

/-- C03, the part that holds: equal values are reported equal. -/
theorem eq_native_partial {w : Nat} {l : List Nat} {x n : Nat} (h : Stores w l x) (hx : x = n) :
    eqNative w l n = true := by
  rw [eq_native_characterised, h.3]
  have := Nat.pow_pos (n := l.length) (pw w)
  omega

/-- C03 is false of the program: `ubigint(3)==5`. -/
theorem eq_native_refuted :
    ¬ ∀ (l : List Nat) (x n : Nat), Stores 32 l x → n < 2 ^ 32 → (eqNative 32 l n = true ↔ x = n) := by
  intro h
  have h3 : Stores 32 [3] 3 :=
    ⟨by intro d hd; simp at hd; subst hd; decide, by intro d hd; simp at hd; omega, by decide⟩
  have := (h [3] 3 5 h3 (by decide)).1 (by decide)
  omega

theorem cmpNativeLoop_sound {w : Nat} {l : List Nat} (n : Nat) :
    (cmpNativeLoop w l n = .gt ↔ n < val w l) ∧
    (cmpNativeLoop w l n = .lt ↔ val w l + (2 ^ w) ^ l.length ≤ n) := by
  induction l generalizing n with
  | nil => simp [cmpNativeLoop, val]; split <;> simp <;> omega
  | cons x l ih =>
    simp only [cmpNativeLoop, val, List.length_cons, pow_succ]
    split
    · next h => simp; omega
    · next h =>
      obtain ⟨i1, i2⟩ := ih ((n - x) / 2 ^ w)
      rw [i1, i2, Nat.div_lt_iff_lt_mul (pw w), native_step (by omega)]
      rw [Nat.mul_comm (val w l), Nat.mul_add, Nat.mul_comm (2 ^ w) (_ ^ _)]
      omega

/-- C03, the part of `<=>` that holds: a number with more digits than the native type is reported
greater, and when it has as many digits, `greater` is reported exactly for greater numbers and `less`
only for smaller ones. -/
theorem cmp_native_partial {w t : Nat} (hw : 0 < w) {l : List Nat} {x n : Nat} (h : Stores w l x)
    (hn : n < 2 ^ t) (hl : (t + w - 1) / w ≤ l.length) :
    (cmpNative w t l n = .gt ↔ n < x) ∧ (cmpNative w t l n = .lt → x < n) := by
  unfold cmpNative
  rcases Nat.lt_or_ge ((t + w - 1) / w) l.length with hlt | hge
  · rw [Nat.compare_eq_gt.2 hlt]
    refine ⟨?_, by simp⟩
    simp only [Ordering.then, true_iff]
    have h1 := val_pos_of_nlz (w := w) h.2 (by rintro rfl; simp at hlt)
    rw [h.3, ← pow_mul] at h1
    refine Nat.lt_of_lt_of_le hn (Nat.le_trans (Nat.pow_le_pow_right (by decide) ?_) h1)
    have h2 := Nat.div_add_mod (t + w - 1) w
    have h3 := Nat.mod_lt (t + w - 1) hw
    have h4 : w * ((t + w - 1) / w) ≤ w * (l.length - 1) := Nat.mul_le_mul_left _ (by omega)
    omega
  · have : l.length = (t + w - 1) / w := by omega
    rw [Nat.compare_eq_eq.2 this]
    simp only [Ordering.then]
    obtain ⟨i1, i2⟩ := cmpNativeLoop_sound (w := w) (l := l) n
    rw [i1, i2, h.3]
    have := Nat.pow_pos (n := l.length) (pw w)
    exact ⟨Iff.rfl, by omega⟩

/-- C03, what `<=>` with a native integer really computes: the number of digits is compared with that of the type, and only
when they are the same it is asked whether the number is greater; it is never found to be less then. -/
theorem cmp_native_characterised {w t : Nat} (hw : 0 < w) {l : List Nat} {x n : Nat} (h : Stores w l x) (hn : n < 2 ^ t) :
    cmpNative w t l n = if l.length < (t + w - 1) / w then .lt
      else if (t + w - 1) / w < l.length then .gt
      else if n < x then .gt else .eq := by
  unfold cmpNative
  by_cases h1 : l.length < (t + w - 1) / w
  · rw [if_pos h1, Nat.compare_eq_lt.2 h1]; rfl
  · rw [if_neg h1]
    by_cases h2 : (t + w - 1) / w < l.length
    · rw [if_pos h2, Nat.compare_eq_gt.2 h2]; rfl
    · have he : l.length = (t + w - 1) / w := by omega
      rw [if_neg h2, Nat.compare_eq_eq.2 he]
      simp only [Ordering.then]
      obtain ⟨i1, i2⟩ := cmpNativeLoop_sound (w := w) (l := l) n
      rw [h.3] at i1 i2
      have hlt : n < x + (2 ^ w) ^ l.length := by
        refine Nat.lt_of_lt_of_le hn ?_
        refine Nat.le_trans ?_ (Nat.le_add_left _ _)
        rw [← pow_mul, he]
        apply Nat.pow_le_pow_right (by decide)
        have := Nat.div_add_mod (t + w - 1) w
        have := Nat.mod_lt (t + w - 1) hw
        omega
      by_cases h3 : n < x
      · rw [if_pos h3]; exact i1.2 h3
      · rw [if_neg h3]
        cases hc : cmpNativeLoop w l n with
        | lt => exact absurd (i2.1 hc) (by omega)
        | eq => rfl
        | gt => exact absurd (i1.1 hc) h3

example : Stores 32 sample (7 + 9 * 2 ^ 64) ∧ (64 + 32 - 1) / 32 ≤ sample.length :=
  ⟨sample_stores, by decide⟩

/-- C03 is false of the program: `ubigint(5)<=>3ull` says less (one digit against two). -/
theorem cmp_native_refuted :
    ¬ ∀ (l : List Nat) (x n : Nat), Stores 32 l x → n < 2 ^ 64 → cmpNative 32 64 l n = compare x n := by
  intro h
  have h3 : Stores 32 [5] 5 :=
    ⟨by intro d hd; simp at hd; subst hd; decide, by intro d hd; simp at hd; omega, by decide⟩
  have := h [5] 5 3 h3 (by decide)
  revert this; decide

/-! ### C04 -/

/-- C04: `x+y` is the sum, and the addition never leaves its buffer. -/
theorem add_correct {w : Nat} {a b : List Nat} {x y : Nat} (ha : Stores w a x) (hb : Stores w b y) :
    ∃ r, add w a b = some r ∧ Stores w r (x + y) := add_stores ha hb

/-- C04: `x+=y` for two different objects. -/
theorem add_assign_correct {w : Nat} {a b : List Nat} {x y : Nat} (ha : Stores w a x)
    (hb : Stores w b y) : ∃ r, addAssign w a b = some r ∧ Stores w r (x + y) := by
  obtain ⟨r, h1, h2, h3, h4⟩ := addAssign_digits ha.1 hb.1
  exact ⟨r, h1, h2, h4 ha.2 hb.2, by rw [h3, ha.3, hb.3]⟩

example : add 32 [0xffffffff, 0xffffffff] [1] = some [0, 0, 1] := by decide +kernel

/-- C04, the same object on both sides: `x+=x` is the double whenever no digit is added. -/
theorem add_self_partial {w : Nat} {a r : List Nat} {x : Nat} (ha : Stores w a x)
    (h : addAssignSelf w a = some r) : Stores w r (x + x) := by
  unfold addAssignSelf at h
  split at h
  · next h0 =>
    have h0 : a = [] := List.length_eq_zero_iff.1 h0
    subst h0
    have : x = 0 := by rw [← ha.3]; rfl
    subst this
    injection h with h; subst h; exact stores_nil w
  · next h0 =>
    split at h
    · cases h
    · obtain ⟨h1, h2, h3⟩ := addInto_some ha.1 ha.1 h
      rw [ha.3] at h3
      simp only [Bool.toNat_false, Nat.add_zero] at h3
      refine ⟨h1, nlz_of_val_ge h1 (nlz_ne_nil_of_length (by omega)) ?_, h3⟩
      have := val_pos_of_nlz (w := w) ha.2 (nlz_ne_nil_of_length h0)
      rw [ha.3] at this
      rw [h2, h3]; omega

example : addAssignSelf 32 [3, 4] = some [6, 8] := by decide +kernel

/-- C04, exactly when `x+=x` fails: the double has one digit more. -/
theorem add_self_characterised {w : Nat} (hw : 0 < w) {a : List Nat} {x : Nat} (ha : Stores w a x) :
    addAssignSelf w a = none ↔ (2 ^ w) ^ a.length ≤ x + x := by
  unfold addAssignSelf
  by_cases h0 : a.length = 0
  · have : a = [] := List.length_eq_zero_iff.1 h0
    subst this
    have : x = 0 := by rw [← ha.3]; rfl
    subst this
    simp
  · have hne : a ≠ [] := nlz_ne_nil_of_length h0
    have hsz : safetySize w a a - a.length = (a.getLastD 0 + a.getLastD 0 + 1) / 2 ^ w := by
      simp [safetySize, safetyDiff]
    rw [if_neg h0, hsz]
    by_cases h1 : (a.getLastD 0 + a.getLastD 0 + 1) / 2 ^ w = 0
    · have hen := safetyDiff_enough ha.1 ha.1 (Nat.le_refl _) hne
      have hd : safetyDiff w a a = 0 := by simp only [safetyDiff, ne_eq, not_true_eq_false, if_false]; exact h1
      rw [hd, Nat.add_zero, ha.3] at hen
      obtain ⟨r, hr⟩ := addInto_isSome (c := false) ha.1 ha.1 (Nat.le_refl _) (by rw [ha.3]; simpa using hen)
      rw [if_neg (by simpa using h1), hr]
      simp only [reduceCtorEq, false_iff]
      omega
    · rw [if_pos h1]
      simp only [true_iff]
      obtain ⟨l, d, rfl⟩ : ∃ l d, a = l ++ [d] := ⟨_, _, (List.dropLast_concat_getLast hne).symm⟩
      have hv := ha.3
      rw [val_append] at hv
      simp only [val, Nat.mul_zero, Nat.add_zero] at hv
      rw [show (l ++ [d]).getLastD 0 = d by simp [List.getLastD_eq_getLast?]] at h1
      have h2 : 2 ^ w ≤ d + d + 1 := by
        by_contra hc
        exact h1 (Nat.div_eq_of_lt (by omega))
      have h3 : 2 ^ w = 2 * 2 ^ (w - 1) := by rw [← pow_succ']; congr 1; omega
      have h4 : 2 ^ w ≤ d + d := by omega
      rw [List.length_append, List.length_singleton, pow_succ]
      have := Nat.mul_le_mul_left ((2 ^ w) ^ l.length) h4
      rw [Nat.mul_add] at this
      omega

/-- C04 is false of `x+=x` when the number grows: the storage read from is released first. -/
theorem add_self_refuted : ¬ ∀ (l : List Nat) (x : Nat), Stores 32 l x →
    ∃ r, addAssignSelf 32 l = some r ∧ Stores 32 r (x + x) := by
  intro h
  have h3 : Stores 32 [2 ^ 31] (2 ^ 31) :=
    ⟨by intro d hd; simp at hd; subst hd; decide, by intro d hd; simp at hd; omega, by decide⟩
  obtain ⟨r, h1, _⟩ := h _ _ h3
  have : addAssignSelf 32 [2 ^ 31] = none := by decide +kernel
  rw [this] at h1; cases h1

/-! ### C05 -/

/-- C05, the part that holds: `x+=n` is the sum unless `n` is within one digit of the end of the
arithmetic type (twice the digit width, or the width of `n` when that is larger). -/
theorem add_native_partial {w t : Nat} (hw : 0 < w) {l : List Nat} {x n : Nat} (h : Stores w l x)
    (hn : n + 2 ^ w ≤ 2 ^ max t (2 * w)) :
    ∃ r, addNative w t l n = some r ∧ Stores w r (x + n) := by
  unfold addNative
  have : (if t > 2 * w then t else 2 * w) = max t (2 * w) := by split <;> omega
  rw [this]
  exact addNativeLoop_stores hw (by omega) h n hn

/-- C05 for every native type narrower than two digits: no restriction on `n`. -/
theorem add_native_narrow {w t : Nat} (hw : 0 < w) (ht : t < 2 * w) {l : List Nat} {x n : Nat}
    (h : Stores w l x) (hn : n < 2 ^ t) : ∃ r, addNative w t l n = some r ∧ Stores w r (x + n) := by
  apply add_native_partial hw h
  rw [Nat.max_eq_right (by omega)]
  have h1 : 2 ^ t ≤ 2 ^ (2 * w - 1) := Nat.pow_le_pow_right (by decide) (by omega)
  have h2 : 2 ^ w ≤ 2 ^ (2 * w - 1) := Nat.pow_le_pow_right (by decide) (by omega)
  have h3 : 2 ^ (2 * w) = 2 ^ (2 * w - 1) * 2 := by rw [← pow_succ]; congr 1; omega
  omega

example : addNative 32 32 [0xffffffff, 0xffffffff] 1 = some [0, 0, 1] := by decide +kernel

/-- C05, what is really computed: the sum, unless the lowest digit and the native number together do not fit in the arithmetic
type of `ct` bits; then the sum is too small by `2^ct`. -/
theorem add_native_characterised {w t : Nat} (hw : 0 < w) {l : List Nat} {x n : Nat} (h : Stores w l x) (hn : n < 2 ^ t) :
    (x % 2 ^ w + n < 2 ^ max t (2 * w) → ∃ r, addNative w t l n = some r ∧ Stores w r (x + n)) ∧
    (2 ^ max t (2 * w) ≤ x % 2 ^ w + n → ∃ r, addNative w t l n = some r ∧ val w r + 2 ^ max t (2 * w) = x + n) := by
  have hct : (if t > 2 * w then t else 2 * w) = max t (2 * w) := by split <;> omega
  unfold addNative
  rw [hct]
  generalize hc : max t (2 * w) = ct
  have hct2 : 2 * w ≤ ct := by omega
  have hn' : n < 2 ^ ct := Nat.lt_of_lt_of_le hn (Nat.pow_le_pow_right (by decide) (by omega))
  have hpw := pw w
  have h4 : 2 ^ ct = 2 ^ w * 2 ^ (ct - w) := by rw [← pow_add]; congr 1; omega
  have h4' : 2 ^ w ≤ 2 ^ (ct - w) := Nat.pow_le_pow_right (by decide) (by omega)
  cases l with
  | nil =>
    have : x = 0 := by rw [← h.3]; rfl
    subst this
    constructor
    · intro _
      simp only [addNativeLoop, Nat.zero_add]
      apply addNativeTail_stores
      refine Nat.lt_of_lt_of_le hn' ?_
      rw [← pow_mul]
      apply Nat.pow_le_pow_right (by decide)
      have := Nat.div_add_mod (ct + w - 1) w
      have := Nat.mod_lt (ct + w - 1) hw
      omega
    · intro h1
      rw [Nat.zero_mod] at h1; omega
  | cons d l =>
    obtain ⟨h1, h2, h3⟩ := h
    rw [digits_cons] at h1
    simp only [val] at h3
    have hd : x % 2 ^ w = d := by rw [← h3, Nat.add_mul_mod_self_left, Nat.mod_eq_of_lt h1.1]
    rw [hd]
    have hdc : d < 2 ^ ct := Nat.lt_of_lt_of_le h1.1 (Nat.pow_le_pow_right (by decide) (by omega))
    by_cases h0 : n = 0
    · subst h0
      exact ⟨fun _ => ⟨d :: l, by simp [addNativeLoop], digits_cons.2 h1, h2, by simp only [val]; omega⟩,
        fun h => by omega⟩
    · constructor
      · intro hlt
        have hc := addCarry_no_overflow (ct := ct) (x := d) (tmp := n) hlt
        have h5 : (d + n) >>> w + 2 ^ w ≤ 2 ^ ct := by
          rw [Nat.shiftRight_eq_div_pow]
          have h5 : (d + n) / 2 ^ w < 2 ^ (ct - w) := by
            apply Nat.div_lt_of_lt_mul; rw [← h4]; omega
          have h7 : 2 ≤ 2 ^ w := by
            calc 2 = 2 ^ 1 := rfl
              _ ≤ _ := Nat.pow_le_pow_right (by decide) (by omega)
          rw [h4]
          nlinarith
        obtain ⟨r, hr, r1, r2, r3⟩ := addNativeLoop_stores hw (by omega) (x := val w l) ⟨h1.2, nlz_tail h2, rfl⟩ _ h5
        refine ⟨_, by simp only [addNativeLoop, h0, if_false, hc, hr]; rfl,
          digits_cons.2 ⟨Nat.mod_lt _ hpw, r1⟩, ?_, ?_⟩
        · cases r with
          | nil =>
            apply nlz_singleton
            simp only [val, Nat.shiftRight_eq_div_pow] at r3
            have := Nat.mod_add_div (d + n) (2 ^ w)
            have h8 : (d + n) / 2 ^ w = 0 := (Nat.add_eq_zero_iff.1 r3.symm).2
            rw [h8] at this
            omega
          | cons y r => exact nlz_cons_cons.2 r2
        · simp only [val]
          rw [r3, Nat.shiftRight_eq_div_pow, Nat.mul_add]
          have := Nat.mod_add_div (d + n) (2 ^ w)
          omega
      · intro hge
        have hs : (d + n) % 2 ^ ct = d + n - 2 ^ ct := by
          rw [Nat.mod_eq_sub_mod hge, Nat.mod_eq_of_lt (by omega)]
        have hcarry : addCarry ct d n false = (d + n - 2 ^ ct, true) := by
          have hd0 : d ≠ 0 := by omega
          simp only [addCarry, Bool.toNat_false, Nat.add_zero, Nat.mod_eq_of_lt hdc, ne_eq, hd0, not_false_eq_true, if_true, hs]
          congr 1
          exact decide_eq_true (by omega)
        have hsmall : (d + n - 2 ^ ct) < 2 ^ w := by omega
        have hz : (d + n - 2 ^ ct) >>> w = 0 := by
          rw [Nat.shiftRight_eq_div_pow, Nat.div_eq_of_lt hsmall]
        refine ⟨(d + n - 2 ^ ct) :: l, ?_, ?_⟩
        · simp only [addNativeLoop, h0, if_false, hcarry, hz, Nat.mod_eq_of_lt hsmall]
          cases l with
          | nil => simp [addNativeLoop, addNativeTail]
          | cons e l => simp [addNativeLoop]
        · simp only [val]; omega

example : Stores 32 [1] 1 ∧ 2 ^ max 64 (2 * 32) ≤ 1 % 2 ^ 32 + (2 ^ 64 - 1) :=
  ⟨⟨by intro d hd; simp at hd; subst hd; decide, by intro d hd; simp at hd; omega, by decide⟩, by decide⟩

/-- C05 is false of the program: `ubigint(1)+=(2^64-1)` loses the carry. -/
theorem add_native_refuted : ¬ ∀ (l : List Nat) (x n : Nat), Stores 32 l x → n < 2 ^ 64 →
    ∃ r, addNative 32 64 l n = some r ∧ Stores 32 r (x + n) := by
  intro h
  have h3 : Stores 32 [1] 1 :=
    ⟨by intro d hd; simp at hd; subst hd; decide, by intro d hd; simp at hd; omega, by decide⟩
  obtain ⟨r, h1, h2⟩ := h _ _ (2 ^ 64 - 1) h3 (by decide)
  have : addNative 32 64 [1] (2 ^ 64 - 1) = some [0] := by decide +kernel
  rw [this] at h1
  injection h1 with h1; subst h1
  have := h2.3
  revert this; decide

/-! ### C06 -/

/-- C06: `x-y` is the difference, zero when `y` is larger (subtraction on `Nat` is truncated). -/
theorem sub_correct {w : Nat} {a b : List Nat} {x y : Nat} (ha : Stores w a x) (hb : Stores w b y) :
    ∃ r, sub w a b = some r ∧ Stores w r (x - y) := sub_stores ha hb

example : sub 32 [0, 0, 1] [1] = some [0xffffffff, 0xffffffff] := by decide +kernel
example : sub 32 [1] [0, 0, 1] = some [] := by decide +kernel

/-! ### C07 -/

/-- C07: `++x`. -/
theorem inc_correct {w : Nat} (hw : 0 < w) {a : List Nat} {x : Nat} (ha : Stores w a x) :
    Stores w (addOne w a) (x + 1) := addOne_stores hw ha

/-- C07, the part of `--x` that holds: the least significant digit is not zero. -/
theorem dec_partial {w : Nat} {a : List Nat} {x : Nat} (ha : Stores w a x) (hlow : x % 2 ^ w ≠ 0) :
    Stores w (subOne w a) (x - 1) := by
  apply subOne_stores ha
  cases a with
  | nil => simp
  | cons d l =>
    have := ha.3
    simp only [val] at this
    have hd := (digits_cons.1 ha.1).1
    rw [← this, Nat.add_mul_mod_self_left, Nat.mod_eq_of_lt hd] at hlow
    simpa using hlow

example : subOne 32 [1] = [] ∧ subOne 32 sample = [6, 0, 9] := by decide +kernel

/-- C07, what `--x` does otherwise: the number grows by `2^w - 2` instead. -/
theorem dec_borrow {w : Nat} (hw : 1 < w) {a : List Nat} {x : Nat} (ha : Stores w a x) (hx : x ≠ 0)
    (hlow : x % 2 ^ w = 0) : Stores w (subOne w a) (x + 2 ^ w - 2) := by
  cases a with
  | nil => have := ha.3; simp [val] at this; omega
  | cons d l =>
    have hv := ha.3
    simp only [val] at hv
    have hd := digits_cons.1 ha.1
    rw [← hv, Nat.add_mul_mod_self_left, Nat.mod_eq_of_lt hd.1] at hlow
    subst hlow
    have h4 : 4 ≤ 2 ^ w := by
      calc 4 = 2 ^ 2 := rfl
        _ ≤ _ := Nat.pow_le_pow_right (by decide) (by omega)
    have hl : l ≠ [] := by rintro rfl; simp [val] at hv; omega
    have : subOne w (0 :: l) = (2 ^ w - 1 - 1) :: l := by
      simp only [subOne, ne_eq, not_true_eq_false, if_false, decDigit]
      rw [if_neg (by simp [hl])]
    rw [this]
    refine ⟨digits_cons.2 ⟨by omega, hd.2⟩, ?_, by simp only [val]; omega⟩
    cases l with
    | nil => exact absurd rfl hl
    | cons y l => exact nlz_cons_cons.2 (nlz_cons_cons.1 ha.2)

/-- C07: `--x` of a number that is not zero is right exactly if the least significant digit is not zero. -/
theorem dec_characterised {w : Nat} (hw : 1 < w) {a : List Nat} {x : Nat} (ha : Stores w a x) (hx : x ≠ 0) :
    Stores w (subOne w a) (x - 1) ↔ x % 2 ^ w ≠ 0 := by
  refine ⟨fun h hlow => ?_, dec_partial ha⟩
  have h1 := h.3
  have h2 := (dec_borrow hw ha hx hlow).3
  have : 2 ^ 2 ≤ 2 ^ w := Nat.pow_le_pow_right (by decide) hw
  omega

/-- C07 is false of the program: `--` of `2^32` gives `2^33-2`. -/
theorem dec_refuted : ¬ ∀ (l : List Nat) (x : Nat), Stores 32 l x → x ≠ 0 →
    Stores 32 (subOne 32 l) (x - 1) := by
  intro h
  have h3 : Stores 32 [0, 1] (2 ^ 32) :=
    ⟨by intro d hd; simp at hd; rcases hd with rfl | rfl <;> decide,
     by intro d hd; simp at hd; omega, by decide⟩
  have := (h _ _ h3 (by decide)).3
  revert this; decide +kernel

/-! ### C08 -/

/-- C08: the schoolbook product is exact for operands of every size. -/
theorem mul_schoolbook_correct {w : Nat} {a b : List Nat} {x y : Nat} (ha : Stores w a x)
    (hb : Stores w b y) : ∃ r, mulBase w a b = some r ∧ Stores w r (x * y) := by
  have := mulBase_stores ha.1 hb.1
  rwa [ha.3, hb.3] at this

/-- C08, one operand below 64 digits: `x*y` always delivers the product. -/
theorem mul_small_correct {w : Nat} {a b : List Nat} {x y : Nat} (ha : Stores w a x)
    (hb : Stores w b y) (h : a.length < 64 ∨ b.length < 64) :
    ∃ r, mul w a b = some r ∧ Stores w r (x * y) := by
  obtain ⟨r, hr⟩ := fastMulAux_small (a.length + b.length) ha.1 hb.1 h
  exact ⟨r, hr, fastMulAux_some _ ha hb hr⟩

/-- C08, operands of every size, divide-and-conquer included: a product that is delivered is exact.
What is missing: the divide-and-conquer path may run out of its buffer (`mul_refuted`). -/
theorem mul_partial {w : Nat} {a b r : List Nat} {x y : Nat} (ha : Stores w a x)
    (hb : Stores w b y) (h : mul w a b = some r) : Stores w r (x * y) := mul_some ha hb h

/-- C08: `none` is never an artefact of the model's bound on the recursion depth. -/
theorem mul_depth_irrelevant {w : Nat} (hw : 0 < w) {a b : List Nat} {x y : Nat} (ha : Stores w a x)
    (hb : Stores w b y) (depth : Nat) (h : a.length + b.length < depth) :
    fastMulAux w depth a b = mul w a b :=
  fastMulAux_fuel hw depth _ ha hb h (Nat.lt_succ_self _)

-- 64-digit operands go through the divide-and-conquer path
example : mul 32 (List.replicate 64 1) (List.replicate 63 0 ++ [5])
    = some (List.replicate 63 0 ++ List.replicate 64 5) := by decide +kernel

/-- First operand of the overrun: `2^(63·32+16) - 1`. -/
def overrunA : List Nat := List.replicate 63 (2 ^ 32 - 1) ++ [2 ^ 16 - 1]
/-- Second operand of the overrun: `2^(63·32+16) + 2^(32·32) - 1`. -/
def overrunB : List Nat := List.replicate 32 (2 ^ 32 - 1) ++ List.replicate 31 0 ++ [2 ^ 16]

/-- C08 is false of the program: with 64-digit operands the carry of the last merge may be written
past the end of the buffer. -/
theorem mul_refuted : ¬ ∀ (a b : List Nat) (x y : Nat), Stores 32 a x → Stores 32 b y →
    ∃ r, mul 32 a b = some r ∧ Stores 32 r (x * y) := by
  intro h
  have ha : Stores 32 overrunA (val 32 overrunA) := ⟨by
      intro d hd
      simp only [overrunA, List.mem_append, List.mem_replicate, List.mem_singleton] at hd
      rcases hd with ⟨_, rfl⟩ | rfl <;> decide,
    by intro d hd; simp [overrunA] at hd; omega, rfl⟩
  have hb : Stores 32 overrunB (val 32 overrunB) := ⟨by
      intro d hd
      simp only [overrunB, List.mem_append, List.mem_replicate, List.mem_singleton] at hd
      rcases hd with (⟨_, rfl⟩ | ⟨_, rfl⟩) | rfl <;> decide,
    by intro d hd; simp [overrunB] at hd; omega, rfl⟩
  obtain ⟨r, h1, _⟩ := h _ _ _ _ ha hb
  have : mul 32 overrunA overrunB = none := by decide +kernel
  rw [this] at h1; cases h1

/-- C08, exactly when a product is not delivered, for two operands of 64 digits or more.  Both are cut
at `s` digits, `B = 2^w`; the product of the upper parts has `h+1` digits.  The program fails when one
of its three smaller products fails, or when the whole product has more digits than `upper·upper·B^(2s)`
while the cross terms end below the top of that buffer (so that it is not enlarged). -/
theorem mul_characterised {w : Nat} (hw : 0 < w) {a b : List Nat} {x y : Nat}
    (ha : Stores w a x) (hb : Stores w b y) (hge : 64 ≤ a.length ∧ 64 ≤ b.length)
    {s : Nat} (hs : s = max (min ((a.length + 1) / 2) (b.length - 1))
      (min (a.length - 1) ((b.length + 1) / 2)))
    {aH aL bH bL aS bS : List Nat}
    (hah : Stores w aH (x / (2 ^ w) ^ s)) (hal : Stores w aL (x % (2 ^ w) ^ s))
    (hbh : Stores w bH (y / (2 ^ w) ^ s)) (hbl : Stores w bL (y % (2 ^ w) ^ s))
    (has : Stores w aS (x / (2 ^ w) ^ s + x % (2 ^ w) ^ s))
    (hbs : Stores w bS (y / (2 ^ w) ^ s + y % (2 ^ w) ^ s))
    {h : Nat} (hh : x / (2 ^ w) ^ s * (y / (2 ^ w) ^ s) < (2 ^ w) ^ (h + 1))
    (hh' : (2 ^ w) ^ h ≤ x / (2 ^ w) ^ s * (y / (2 ^ w) ^ s)) :
    mul w a b = none ↔
      mul w aH bH = none ∨ mul w aL bL = none ∨ mul w aS bS = none ∨
      ((2 ^ w) ^ (2 * s + h + 1) ≤ x * y ∧
        x / (2 ^ w) ^ s * (y % (2 ^ w) ^ s) + x % (2 ^ w) ^ s * (y / (2 ^ w) ^ s)
          < (2 ^ w) ^ (s + h)) := by
  have hd : ∀ {l : List Nat} {v n : Nat}, Stores w l v → v < (2 ^ w) ^ n → l.length ≤ n :=
    fun hl hv => (length_lt_iff hl).2 hv
  obtain ⟨_, _, hs0, hsum⟩ := splitPoint_lt hge.1 hge.2
  have hs' : s = splitPoint a.length b.length := hs
  rw [← hs'] at hsum hs0
  have two : 2 ≤ 2 ^ w := by
    calc 2 = 2 ^ 1 := rfl
      _ ≤ _ := Nat.pow_le_pow_right (by decide) (by omega)
  have bound : ∀ {l : List Nat} {v : Nat}, Stores w l v →
      v / (2 ^ w) ^ s < (2 ^ w) ^ (max (l.length - s) s) ∧
      v % (2 ^ w) ^ s < (2 ^ w) ^ (max (l.length - s) s) ∧
      v / (2 ^ w) ^ s + v % (2 ^ w) ^ s < (2 ^ w) ^ (max (l.length - s) s + 1) := by
    intro l v hl
    have h1 : v / (2 ^ w) ^ s < (2 ^ w) ^ (max (l.length - s) s) := by
      apply Nat.div_lt_of_lt_mul
      rw [← pow_add]
      exact Nat.lt_of_lt_of_le ((length_lt_iff hl).1 le_rfl)
        (Nat.pow_le_pow_right (pw w) (by omega))
    have h2 : v % (2 ^ w) ^ s < (2 ^ w) ^ (max (l.length - s) s) :=
      Nat.lt_of_lt_of_le (Nat.mod_lt _ (Nat.pow_pos (pw w)))
        (Nat.pow_le_pow_right (pw w) (Nat.le_max_right _ _))
    refine ⟨h1, h2, ?_⟩
    rw [pow_succ]
    calc _ < (2 ^ w) ^ (max (l.length - s) s) * 2 := by omega
      _ ≤ _ := Nat.mul_le_mul_left _ two
  obtain ⟨a1, a2, a3⟩ := bound ha
  obtain ⟨b1, b2, b3⟩ := bound hb
  have l1 := hd hah a1
  have l2 := hd hal a2
  have l3 := hd has a3
  have l4 := hd hbh b1
  have l5 := hd hbl b2
  have l6 := hd hbs b3
  have := fastMulAux_none hw (a.length + b.length) ha hb hge hs' hah hal hbh hbl has hbs hh hh'
  rw [mul_depth_irrelevant hw hah hbh _ (by omega), mul_depth_irrelevant hw hal hbl _ (by omega),
    mul_depth_irrelevant hw has hbs _ (by omega)] at this
  exact this

/-- C08, from 64 to 124 digits: a product is delivered exactly when it does not run past the digits of
the first buffer, a condition on the two numbers alone. -/
theorem mul_mid_characterised {w : Nat} (hw : 0 < w) {a b : List Nat} {x y : Nat}
    (ha : Stores w a x) (hb : Stores w b y) (hge : 64 ≤ a.length ∧ 64 ≤ b.length)
    (hle : a.length ≤ 124 ∧ b.length ≤ 124)
    {s h : Nat} (hs : s = (max a.length b.length + 1) / 2)
    (hh : x / (2 ^ w) ^ s * (y / (2 ^ w) ^ s) < (2 ^ w) ^ (h + 1))
    (hh' : (2 ^ w) ^ h ≤ x / (2 ^ w) ^ s * (y / (2 ^ w) ^ s)) :
    (∃ r, mul w a b = some r ∧ Stores w r (x * y)) ↔
      (x * y < (2 ^ w) ^ (2 * s + h + 1) ∨
        (2 ^ w) ^ (s + h)
          ≤ x / (2 ^ w) ^ s * (y % (2 ^ w) ^ s) + x % (2 ^ w) ^ s * (y / (2 ^ w) ^ s)) := by
  have hs' : s = max (min ((a.length + 1) / 2) (b.length - 1))
      (min (a.length - 1) ((b.length + 1) / 2)) := by omega
  have hah := stores_drop s ha
  have hbh := stores_drop s hb
  have hal := stores_take s (by omega) ha
  have hbl := stores_take s (by omega) hb
  obtain ⟨aS, e1, has⟩ := add_stores hah hal
  obtain ⟨bS, e2, hbs⟩ := add_stores hbh hbl
  have key := mul_characterised hw ha hb hge hs' hah hal hbh hbl has hbs hh hh'
  have bound : ∀ {l : List Nat} {v : Nat}, Stores w l v → l.length ≤ 2 * s →
      v / (2 ^ w) ^ s < (2 ^ w) ^ s ∧ v % (2 ^ w) ^ s < (2 ^ w) ^ s := by
    intro l v hl hll
    refine ⟨?_, Nat.mod_lt _ (Nat.pow_pos (pw w))⟩
    apply Nat.div_lt_of_lt_mul
    rw [← pow_add]
    exact (length_lt_iff hl).1 (by omega)
  obtain ⟨b1, b2⟩ := bound ha (by omega)
  have l1 := add_length hw hah hal b1 b2 e1
  have d1 : ∀ {c d : List Nat} {u v : Nat}, Stores w c u → Stores w d v → c.length ≤ 63 →
      mul w c d ≠ none := by
    intro c d u v hc hd hl hn
    obtain ⟨r, hr, _⟩ := mul_small_correct hc hd (Or.inl (by omega))
    rw [hn] at hr; cases hr
  have n1 := d1 hah hbh (by rw [List.length_drop]; omega)
  have n2 := d1 hal hbl (by
    have := shrink_length_le (a.take s)
    rw [List.length_take] at this; omega)
  have n3 := d1 has hbs (by omega)
  simp only [n1, n2, n3, false_or] at key
  constructor
  · rintro ⟨r, hr, _⟩
    by_contra hc
    have : mul w a b = none := key.2 ⟨by omega, by omega⟩
    rw [hr] at this; cases this
  · intro hc
    cases hr : mul w a b with
    | none =>
      have := key.1 hr
      omega
    | some r => exact ⟨r, rfl, mul_partial ha hb hr⟩

/-- C08, a class of operands for which every product from 64 to 124 digits is delivered: the product of
the upper parts, each increased by one, has no more digits than the product of the upper parts. -/
theorem mul_mid_correct {w : Nat} (hw : 0 < w) {a b : List Nat} {x y : Nat}
    (ha : Stores w a x) (hb : Stores w b y) (hge : 64 ≤ a.length ∧ 64 ≤ b.length)
    (hle : a.length ≤ 124 ∧ b.length ≤ 124)
    {s h : Nat} (hs : s = (max a.length b.length + 1) / 2)
    (hh : (x / (2 ^ w) ^ s + 1) * (y / (2 ^ w) ^ s + 1) ≤ (2 ^ w) ^ (h + 1))
    (hh' : (2 ^ w) ^ h ≤ x / (2 ^ w) ^ s * (y / (2 ^ w) ^ s)) :
    ∃ r, mul w a b = some r ∧ Stores w r (x * y) := by
  have h1 : x / (2 ^ w) ^ s * (y / (2 ^ w) ^ s) < (2 ^ w) ^ (h + 1) := by
    refine Nat.lt_of_lt_of_le ?_ hh
    exact Nat.mul_lt_mul'' (Nat.lt_succ_self _) (Nat.lt_succ_self _)
  refine (mul_mid_characterised hw ha hb hge hle hs h1 hh').2 (Or.inl ?_)
  have p0 : 0 < (2 ^ w) ^ s := Nat.pow_pos (pw w)
  have hx : x < (2 ^ w) ^ s * (x / (2 ^ w) ^ s + 1) := by
    have := Nat.mod_add_div x ((2 ^ w) ^ s)
    have := Nat.mod_lt x p0
    rw [Nat.mul_add]; omega
  have hy : y < (2 ^ w) ^ s * (y / (2 ^ w) ^ s + 1) := by
    have := Nat.mod_add_div y ((2 ^ w) ^ s)
    have := Nat.mod_lt y p0
    rw [Nat.mul_add]; omega
  calc x * y < ((2 ^ w) ^ s * (x / (2 ^ w) ^ s + 1)) * ((2 ^ w) ^ s * (y / (2 ^ w) ^ s + 1)) :=
        Nat.mul_lt_mul'' hx hy
    _ = (2 ^ w) ^ (2 * s) * ((x / (2 ^ w) ^ s + 1) * (y / (2 ^ w) ^ s + 1)) := by
        rw [two_mul, pow_add]; ring
    _ ≤ (2 ^ w) ^ (2 * s) * (2 ^ w) ^ (h + 1) := Nat.mul_le_mul_left _ hh
    _ = _ := by rw [← pow_add]; congr 1

-- the overrun of `mul_refuted` meets the failing side with h = 62, the all-ones number the other
example : let x := 2 ^ 2032 - 1; let y := 2 ^ 2032 + 2 ^ 1024 - 1; let P := (2 ^ 32) ^ 32
    x / P * (y / P) < (2 ^ 32) ^ 63 ∧ (2 ^ 32) ^ 62 ≤ x / P * (y / P) ∧
    (2 ^ 32) ^ (2 * 32 + 62 + 1) ≤ x * y ∧
    x / P * (y % P) + x % P * (y / P) < (2 ^ 32) ^ (32 + 62) := by decide +kernel
example : let x := 2 ^ 2048 - 1; let P := (2 ^ 32) ^ 32
    (x / P + 1) * (x / P + 1) ≤ (2 ^ 32) ^ 64 ∧ (2 ^ 32) ^ 63 ≤ x / P * (x / P) := by decide +kernel

/-! ### C09

`cut` stands for the floating point expression `n/e` of the divide-and-conquer step; the theorems hold
for every such function. -/

/-- C09: division and remainder by zero are zero. -/
theorem div_by_zero {w : Nat} {cut : Nat → Nat} {a b : List Nat} (hb : Stores w b 0) :
    div w cut a b = some [] ∧ mod w cut a b = some [] ∧ divmod w cut a b = some ([], []) := by
  have : b = [] := eq_nil_of_val_zero hb.2 hb.3
  subst this
  simp [div, mod, divmod]

/-- C09: the schoolbook routine delivers the exact quotient and remainder, for operands of every
size. -/
theorem schoolbook_division_correct {w : Nat} {a b : List Nat} {x y : Nat} (ha : Stores w a x)
    (hb : Stores w b y) (hy : 0 < y) (hl : b.length ≤ a.length) :
    ∃ q r, divNoOpt w a b = some (q, r) ∧ Stores w q (x / y) ∧ Stores w (shrink r) (x % y) := by
  obtain ⟨q, r, h1, h2, h3, h4⟩ := divNoOpt_spec ha.1 hb.1 hb.2 (stores_pos_ne hb hy) hl
  rw [ha.3, hb.3] at h2 h4
  exact ⟨q, r, h1, h2, stores_shrink h3 h4⟩

/-- C09: `x%y` for dividends of up to 32 digits always delivers, and is exact. -/
theorem mod_small_correct {w : Nat} {cut : Nat → Nat} {a b : List Nat} {x y : Nat}
    (ha : Stores w a x) (hb : Stores w b y) (hy : 0 < y) (h32 : a.length ≤ 32) :
    ∃ r, mod w cut a b = some r ∧ Stores w r (x % y) := by
  have hne := stores_pos_ne hb hy
  unfold mod
  rw [if_neg (by have := List.length_pos_iff.2 hne; omega)]
  split
  · next hlt =>
    have := length_lt_of_val_lt ha.1 hb.2 hlt
    rw [ha.3, hb.3] at this
    exact ⟨a, rfl, by rwa [Nat.mod_eq_of_lt this]⟩
  · obtain ⟨r, e, s⟩ := modBase_spec ha.1 hb.1 hb.2 hne (by omega)
    refine ⟨r, ?_, by rwa [ha.3, hb.3] at s⟩
    unfold fastMod
    rw [if_pos (by simpa [divThreshold] using h32), e]

/-- C09: `x%y` for operands of every size: a remainder that is delivered is exact. -/
theorem mod_partial {w : Nat} {cut : Nat → Nat} (hw : 0 < w) {a b r : List Nat} {x y : Nat}
    (ha : Stores w a x) (hb : Stores w b y) (hy : 0 < y) (h : mod w cut a b = some r) :
    Stores w r (x % y) := by
  have hne := stores_pos_ne hb hy
  unfold mod at h
  rw [if_neg (by have := List.length_pos_iff.2 hne; omega)] at h
  split at h
  · next hlt =>
    have := length_lt_of_val_lt ha.1 hb.2 hlt
    rw [ha.3, hb.3] at this
    injection h with h; subst h
    rwa [Nat.mod_eq_of_lt this]
  · have := fastMod_some hw ha.1 hb hy (by omega) h
    rwa [ha.3] at this

/-- C09: `x/y` for dividends of up to 32 digits always delivers; the quotient is exact or one too
large, and exact when the divisor has at most half the digits of the dividend plus one. -/
theorem div_small_partial {w : Nat} {cut : Nat → Nat} {a b : List Nat} {x y : Nat}
    (ha : Stores w a x) (hb : Stores w b y) (hy : 0 < y) (h32 : a.length ≤ 32) :
    ∃ q k, div w cut a b = some q ∧ Stores w q k ∧ (k = x / y ∨ k = x / y + 1) ∧
      (2 * (b.length - 1) ≤ a.length → k = x / y) := by
  have hne := stores_pos_ne hb hy
  unfold div
  rw [if_neg (by have := List.length_pos_iff.2 hne; omega)]
  split
  · next hlt =>
    have := length_lt_of_val_lt ha.1 hb.2 hlt
    rw [ha.3, hb.3] at this
    rw [Nat.div_eq_of_lt this]
    exact ⟨[], 0, rfl, stores_nil w, Or.inl rfl, fun _ => rfl⟩
  · obtain ⟨q, k, h1, h2, h3, h4, h5⟩ := fastDiv_small (cut := cut) ha.1 hb hy (by omega) h32
    rw [ha.3] at h3 h4 h5
    exact ⟨q, k, h1, h2, by omega, h5⟩

/-- C09: `x/y` for operands of every size: a quotient that is delivered is never too small. -/
theorem div_partial {w : Nat} {cut : Nat → Nat} (hw : 0 < w) {a b q : List Nat} {x y : Nat}
    (ha : Stores w a x) (hb : Stores w b y) (hy : 0 < y) (h : div w cut a b = some q) :
    x / y ≤ val w q := by
  have hne := stores_pos_ne hb hy
  unfold div at h
  rw [if_neg (by have := List.length_pos_iff.2 hne; omega)] at h
  split at h
  · next hlt =>
    have := length_lt_of_val_lt ha.1 hb.2 hlt
    rw [ha.3, hb.3] at this
    rw [Nat.div_eq_of_lt this]; exact Nat.zero_le _
  · have := (fastDiv_some hw ha.1 hb h).2
    rwa [ha.3] at this

/-- C09, the same object on both sides: where `x%=x` is defined it leaves zero. -/
theorem mod_self_partial {w : Nat} {cut : Nat → Nat} (hw : 0 < w) {a r : List Nat} {x : Nat}
    (ha : Stores w a x) (h : modAssignSelf w cut a = some r) : Stores w r 0 := by
  unfold modAssignSelf at h
  split at h
  · injection h with h; subst h; exact stores_nil w
  · next h0 =>
    split at h
    · cases h
    · have hx : 0 < x := by
        have := val_pos_of_nlz (w := w) ha.2 (nlz_ne_nil_of_length h0)
        rw [ha.3] at this
        exact Nat.lt_of_lt_of_le (Nat.pow_pos (Nat.two_pow_pos w)) this
      have hm : mod w cut a a = some r := by
        unfold mod
        rw [if_neg h0, if_neg (Nat.lt_irrefl _)]
        exact h
      have := mod_partial hw ha ha hx hm
      rwa [Nat.mod_self] at this

/-- C09: `x%=x` is undefined for every number of one to thirty-two digits, although `x%y` with an
equal `y` is zero. -/
theorem mod_self_refuted {w : Nat} {cut : Nat → Nat} {a : List Nat} {x : Nat} (ha : Stores w a x)
    (hx : 0 < x) (h32 : a.length ≤ 32) :
    modAssignSelf w cut a = none ∧ ∃ r, mod w cut a a = some r ∧ Stores w r 0 := by
  have hne := stores_pos_ne ha hx
  constructor
  · unfold modAssignSelf
    rw [if_neg (by have := List.length_pos_iff.2 hne; omega), if_pos (by unfold divThreshold; omega)]
  · obtain ⟨r, h1, h2⟩ := mod_small_correct (cut := cut) ha ha hx h32
    exact ⟨r, h1, by rwa [Nat.mod_self] at h2⟩

example : modAssignSelf 32 id [7, 5] = none ∧ mod 32 id [7, 5] [7, 5] = some [] := by decide +kernel

/-- C06, the same object on both sides: `x-=x` leaves zero (line 395 reads each digit before it
overwrites it). -/
theorem sub_self_correct {w : Nat} {a : List Nat} {x : Nat} (ha : Stores w a x) :
    ∃ r, sub w a a = some r ∧ Stores w r 0 := by
  obtain ⟨r, h1, h2⟩ := sub_correct ha ha
  exact ⟨r, h1, by rwa [Nat.sub_self] at h2⟩

/-- C09: `divmod` for operands of every size: a remainder that is delivered is exact and the quotient
is not too small; up to 32 digits the quotient is exact too, so `x = q*y + r` and `r < y`. -/
theorem divmod_partial {w : Nat} {cut : Nat → Nat} (hw : 0 < w) {a b q r : List Nat} {x y : Nat}
    (ha : Stores w a x) (hb : Stores w b y) (hy : 0 < y) (h : divmod w cut a b = some (q, r)) :
    Stores w r (x % y) ∧ x / y ≤ val w q ∧
      (a.length ≤ 32 → Stores w q (x / y) ∧ x = val w q * y + val w r ∧ val w r < y) := by
  have hne := stores_pos_ne hb hy
  have fin : Stores w r (x % y) → (a.length ≤ 32 → Stores w q (x / y)) →
      (a.length ≤ 32 → Stores w q (x / y) ∧ x = val w q * y + val w r ∧ val w r < y) := by
    intro hr hq h32
    refine ⟨hq h32, ?_, ?_⟩
    · rw [(hq h32).3, hr.3, Nat.mul_comm, Nat.add_comm, Nat.mod_add_div]
    · rw [hr.3]; exact Nat.mod_lt _ hy
  unfold divmod at h
  rw [if_neg (by have := List.length_pos_iff.2 hne; omega)] at h
  split at h
  · next hlt =>
    have := length_lt_of_val_lt ha.1 hb.2 hlt
    rw [ha.3, hb.3] at this
    simp only [Option.some.injEq, Prod.mk.injEq] at h
    obtain ⟨rfl, rfl⟩ := h
    have hq : Stores w [] (x / y) := by rw [Nat.div_eq_of_lt this]; exact stores_nil w
    have hr : Stores w a (x % y) := by rwa [Nat.mod_eq_of_lt this]
    exact ⟨hr, by rw [Nat.div_eq_of_lt this]; exact Nat.zero_le _, fin hr fun _ => hq⟩
  · obtain ⟨h1, h2, h3, h4⟩ := fastDivmod_some hw ha.1 hb hy h
    rw [ha.3] at h2 h3 h4
    exact ⟨h3, h2, fin h3 h4⟩

/-- C09: up to 32 digits and a divisor of at most half the length, `divmod` always delivers. -/
theorem divmod_small_delivers {w : Nat} {cut : Nat → Nat} {a b : List Nat} {x y : Nat}
    (ha : Stores w a x) (hb : Stores w b y) (hy : 0 < y) (h32 : a.length ≤ 32)
    (h2 : 2 * (b.length - 1) ≤ a.length) : ∃ q r, divmod w cut a b = some (q, r) := by
  have hne := stores_pos_ne hb hy
  unfold divmod
  rw [if_neg (by have := List.length_pos_iff.2 hne; omega)]
  split
  · exact ⟨_, _, rfl⟩
  · obtain ⟨q, r, e⟩ := divmodBase_isSome ha.1 hb hy (by omega) h2 (by omega)
    refine ⟨q, r, ?_⟩
    unfold fastDivmod
    rw [if_pos (by simpa [divThreshold] using h32), e]

/-- C09: `none` of the divide-and-conquer division is never an artefact of the model's bound on the
recursion depth. -/
theorem divmod_depth_irrelevant {w : Nat} {cut : Nat → Nat} (hcut : ∀ n, 3 ≤ n → 1 ≤ cut n)
    {a b : List Nat} {x y : Nat} (ha : Stores w a x) (hb : Stores w b y) (hy : 0 < y) (depth : Nat)
    (h : a.length < depth) : fastDivmodAux w cut depth a b = fastDivmodImpl w cut a b :=
  fastDivmodAux_fuel hcut depth _ ha.1 hb hy h (by omega)

example : divmod 32 (fun n => n * 100 / 272) sample [5] = some ([3435973838, 3435973836, 1], [1]) := by
  decide +kernel
-- more than 32 digits: the divide-and-conquer path
example : mod 32 (fun n => n * 100 / 272) (List.replicate 40 5) (List.replicate 20 2)
    = some (List.replicate 20 1) := by decide +kernel

/-- C09 is false of the program: `5·2^96 / (5·2^96+1)` gives one, and `divmod` of these operands
subtracts beyond zero. -/
theorem div_refuted (cut : Nat → Nat) : ¬ ∀ (a b : List Nat) (x y : Nat), Stores 32 a x →
    Stores 32 b y → 0 < y → ∃ q, div 32 cut a b = some q ∧ Stores 32 q (x / y) := by
  intro h
  have h3 : ∀ d, d < 2 → Stores 32 [d, 0, 0, 5] (d + 5 * 2 ^ 96) := fun d hd =>
    ⟨by intro e he; simp at he; rcases he with rfl | rfl | rfl <;> omega,
     by intro e he; simp at he; omega, by simp [val]⟩
  obtain ⟨q, h1, h2⟩ := h _ _ _ _ (h3 0 (by omega)) (h3 1 (by omega)) (by omega)
  have : div 32 cut [0, 0, 0, 5] [1, 0, 0, 5] = some [1] := rfl
  rw [this] at h1
  injection h1 with h1; subst h1
  have := h2.3
  revert this; decide

theorem divmod_refuted (cut : Nat → Nat) : divmod 32 cut [0, 0, 0, 5] [1, 0, 0, 5] = none := rfl

/-- C09: when exactly `x/y` is one too large, for dividends of up to 32 digits.  The program divides the leading parts
of both numbers, without the last `2*|y| - |x| - 2` digits (`|·|` the number of digits); the quotient is one too large
if and only if what it drops of `y`, times the right quotient plus one, fills the gap between the remainder and `y`. -/
theorem div_characterised {w : Nat} {cut : Nat → Nat} {a b : List Nat} {x y : Nat}
    (ha : Stores w a x) (hb : Stores w b y) (hy : 0 < y) (h32 : a.length ≤ 32) :
    ∃ q, div w cut a b = some q ∧ Stores w q (x / y +
      if b.length ≤ a.length ∧ y ≤ x % y + (x / y + 1) * (y % (2 ^ w) ^ (2 * b.length - a.length - 2)) then 1 else 0) := by
  have hne := stores_pos_ne hb hy
  unfold div
  rw [if_neg (by have := List.length_pos_iff.2 hne; omega)]
  split
  · next hlt =>
    have := length_lt_of_val_lt ha.1 hb.2 hlt
    rw [ha.3, hb.3] at this
    rw [Nat.div_eq_of_lt this, if_neg (fun h => by omega)]
    exact ⟨[], rfl, stores_nil w⟩
  · next hge =>
    obtain ⟨q, h1, h2⟩ := fastDiv_char (cut := cut) ha.1 hb hy (by omega) h32
    rw [ha.3] at h2
    refine ⟨q, h1, ?_⟩
    simpa only [show b.length ≤ a.length by omega, true_and] using h2

/-- C09: a dividend of up to 32 digits divided by one of its divisors gives the exact quotient. -/
theorem div_exact_correct {w : Nat} {cut : Nat → Nat} {a b : List Nat} {x y : Nat}
    (ha : Stores w a x) (hb : Stores w b y) (hy : 0 < y) (h32 : a.length ≤ 32) (hd : y ∣ x) :
    ∃ q, div w cut a b = some q ∧ Stores w q (x / y) := by
  obtain ⟨q, h1, h2⟩ := div_characterised (cut := cut) ha hb hy h32
  refine ⟨q, h1, ?_⟩
  rw [if_neg] at h2
  · exact h2
  · rintro ⟨hl, hc⟩
    have h0 := Nat.mod_eq_zero_of_dvd hd
    have := dvd_not_over ha.1 hb.2 (stores_pos_ne hb hy) hl (by rw [ha.3, hb.3]; exact h0)
    rw [ha.3, hb.3] at this
    exact this hc

/-- C09: `divmod` of up to 32 digits subtracts beyond zero in exactly the cases where `/` is one too large. -/
theorem divmod_characterised {w : Nat} {cut : Nat → Nat} {a b : List Nat} {x y : Nat}
    (ha : Stores w a x) (hb : Stores w b y) (hy : 0 < y) (h32 : a.length ≤ 32) :
    divmod w cut a b = none ↔
      b.length ≤ a.length ∧ y ≤ x % y + (x / y + 1) * (y % (2 ^ w) ^ (2 * b.length - a.length - 2)) := by
  have hne := stores_pos_ne hb hy
  unfold divmod
  rw [if_neg (by have := List.length_pos_iff.2 hne; omega)]
  split
  · next hlt =>
    constructor
    · intro h; cases h
    · intro h; omega
  · next hge =>
    have := divmodBase_char ha.1 hb hy (by omega) (by omega)
    rw [ha.3] at this
    unfold fastDivmod
    rw [if_pos (by simpa [divThreshold] using h32), this]
    exact ⟨fun h => ⟨by omega, h⟩, fun h => h.2⟩

-- the case of `div_refuted`: both have four digits and the last two are dropped
example : let x := 5 * 2 ^ 96; let y := 5 * 2 ^ 96 + 1
    ¬ y ≤ x % y + (x / y + 1) * (y % (2 ^ 32) ^ 0) ∧ y ≤ x % y + (x / y + 1) * (y % (2 ^ 32) ^ (2 * 4 - 4 - 2)) := by
  decide +kernel
-- and one where dropping them does no harm
example : div 32 id [7, 1, 0, 9] [1, 1, 0, 3] = some [3] := by decide +kernel

/-- C09: `%` by a one-digit number reads before the divisor's storage once the dividend has more than
32 digits. -/
theorem mod_one_digit_refuted {w : Nat} (cut : Nat → Nat) (d : Nat) (a : List Nat)
    (h : 32 < a.length) : mod w cut a [d] = none := by
  unfold mod
  simp only [List.length_singleton, Nat.one_ne_zero, if_false]
  rw [if_neg (by omega)]
  unfold fastMod
  rw [if_neg (by simp [divThreshold]; omega)]
  simp [regularise]

/-- C09: the same happens inside `%` and `divmod` whenever the remainder has more than 32 digits: it is scaled back by a
division by one digit. -/
theorem long_remainder_refuted {w : Nat} (cut : Nat → Nat) (hw : 0 < w) {a b : List Nat} {x y : Nat} (ha : Stores w a x)
    (hb : Stores w b y) (hle : y ≤ x) (hy : 0 < y) (hlong : (2 ^ w) ^ 32 ≤ x % y) :
    mod w cut a b = none ∧ divmod w cut a b = none := by
  have hne := stores_pos_ne hb hy
  have hl : b.length ≤ a.length := by
    apply length_le_of_val_lt (w := w) hb.2
    have := val_lt ha.1
    rw [ha.3] at this
    rw [hb.3]
    omega
  have h32 : 32 < a.length := by
    by_contra hc
    have h1 := val_lt ha.1
    rw [ha.3] at h1
    have h2 : (2 ^ w) ^ a.length ≤ (2 ^ w) ^ 32 := Nat.pow_le_pow_right (pw w) (by omega)
    have := Nat.mod_le x y
    omega
  obtain ⟨h1, h2⟩ := fastMod_long (cut := cut) hw ha.1 hb hy h32 (by rw [ha.3]; exact hlong)
  have hbl := List.length_pos_iff.2 hne
  unfold mod divmod
  rw [if_neg (by omega), if_neg (by omega), if_neg (by omega), if_neg (by omega)]
  exact ⟨h1, h2⟩

-- 2^2000 + 2^1100 divided by 2^2000
example : (2 ^ 32) ^ 32 ≤ (2 ^ 2000 + 2 ^ 1100) % 2 ^ 2000 := by decide +kernel

/-! ### C10 -/

/-- C10: `x<<n` multiplies by `2^n`. -/
theorem shl_correct {w : Nat} (hw : 0 < w) {a : List Nat} {x : Nat} (ha : Stores w a x) (n : Nat) :
    Stores w (shl w a n) (x * 2 ^ n) := shl_stores hw n ha

example : shl 32 sample 65 = [0, 0, 14, 0, 18] := by decide +kernel

/-! ### C11 -/

/-- C11: `x>>=n` divides by `2^n`. -/
theorem shr_assign_correct {w : Nat} (hw : 0 < w) {a : List Nat} {x : Nat} (ha : Stores w a x)
    (n : Nat) : Stores w (shrAssign w a n) (x / 2 ^ n) := shrAssign_stores hw n ha

example : shrAssign 32 sample 65 = [4] := by decide +kernel

/-- C11, the part of `x>>n` that holds: counts below the digit width, multiples of it, and counts
beyond the number. -/
theorem shr_partial {w : Nat} (hw : 0 < w) {a : List Nat} {x : Nat} (ha : Stores w a x) (n : Nat)
    (h : n < w ∨ n % w = 0 ∨ a.length ≤ n / w) : ∃ r, shr w a n = some r ∧ Stores w r (x / 2 ^ n) := by
  obtain ⟨r, hr⟩ := shr_isSome h
  exact ⟨r, hr, shr_some hw n ha hr⟩

/-- C11, exactly when `x>>n` fails: there is a whole-digit part and a bit part, and digits are left. -/
theorem shr_characterised {w : Nat} (hw : 0 < w) {a : List Nat} (n : Nat) :
    shr w a n = none ↔ w ≤ n ∧ n % w ≠ 0 ∧ n / w < a.length := by
  constructor
  · intro h
    by_contra hc
    obtain ⟨r, hr⟩ := shr_isSome (w := w) (a := a) (n := n) (by
      by_contra h2
      exact hc ⟨by omega, by omega, by omega⟩)
    rw [hr] at h; cases h
  · rintro ⟨h1, h2, h3⟩
    have hq : n / w ≠ 0 := by
      have := Nat.div_pos h1 hw
      omega
    have hne : a ≠ [] := by rintro rfl; simp at h3
    unfold shr
    simp [hne, hq, h2, show ¬ a.length ≤ n / w by omega]

/-- C11: whatever `x>>n` delivers is right. -/
theorem shr_delivered_correct {w : Nat} (hw : 0 < w) {a r : List Nat} {x : Nat} (ha : Stores w a x)
    (n : Nat) (h : shr w a n = some r) : Stores w r (x / 2 ^ n) := shr_some hw n ha h

/-- C11 is false of the program: `x>>33` of a three-digit number writes outside the result. -/
theorem shr_refuted : ¬ ∀ (l : List Nat) (x n : Nat), Stores 32 l x →
    ∃ r, shr 32 l n = some r ∧ Stores 32 r (x / 2 ^ n) := by
  intro h
  obtain ⟨r, h1, _⟩ := h _ _ 33 sample_stores
  have : shr 32 sample 33 = none := by decide +kernel
  rw [this] at h1; cases h1

/-- C10, C11: the shifts by whole digits used by the library itself. -/
theorem digit_shifts_correct {w : Nat} {a : List Nat} {x : Nat} (ha : Stores w a x) (n : Nat) :
    Stores w (shlDigits a n) (x * (2 ^ w) ^ n) ∧ Stores w (shrDigits a n) (x / (2 ^ w) ^ n) :=
  ⟨shlDigits_stores n ha, shrDigits_stores n ha⟩

/-! ### C12 -/

/-- C12: `bit_at`. -/
theorem bit_at_correct {w : Nat} (hw : 0 < w) {a : List Nat} {x : Nat} (ha : Stores w a x) (n : Nat) :
    bitAt w a n = x.testBit n := bitAt_spec hw n ha

/-- C12: `countr_zero` of a non-zero number is the exponent of two in it. -/
theorem countr_zero_correct {k : Nat} {a : List Nat} {x : Nat} (ha : Stores (Bits.bitsOf k) a x)
    (hx : x ≠ 0) : 2 ^ countrZero k a ∣ x ∧ ¬ 2 ^ (countrZero k a + 1) ∣ x := by
  obtain ⟨h1, h2⟩ := countrZero_bits ha.1 (by rw [ha.3]; exact hx)
  rw [ha.3] at h1 h2
  exact ⟨two_pow_dvd_of_bits h1, not_dvd_of_bit h2⟩

/-- C12: `get_bitnum` is the number of binary digits. -/
theorem get_bitnum_correct {k : Nat} {a : List Nat} {x : Nat} (ha : Stores (Bits.bitsOf k) a x) :
    Bits.Spec.BinaryLength x (getBitnum k a) := getBitnum_spec ha

/-- C12: `is_odd`. -/
theorem is_odd_correct {w : Nat} (hw : 0 < w) {a : List Nat} {x : Nat} (ha : Stores w a x) :
    isOdd a = true ↔ x % 2 = 1 := by rw [isOdd_spec hw ha]; simp

example : Bits.bitsOf 2 = 32 ∧ getBitnum 2 sample = 68 ∧ countrZero 2 [0, 0, 8] = 67 ∧
    bitAt 32 sample 64 = true ∧ isOdd sample = true := by decide +kernel

end ELC.Ubig
