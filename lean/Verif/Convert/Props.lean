import Verif.Convert.Lemmas
/-!
Properties C152 to C154: conversion of big numbers to native integers, and the question whether it keeps the value.

`Spec.Fits signed bits v` (see `Spec.lean`) says that a native type of that kind has the number `v`; `Spec.Cast` is what the
language makes of any integer in such a type.  `T : NType` is a native integer type of `8·2^level` bits.
-/
namespace ELC.Convert
open Spec (Fits Cast)
open Ubig.Spec (Stores)
open Bigfloat (UFrac Frac)
open Bigfloat.Spec (uvalue Finite)

/-- `int` on the usual platforms, and others for the examples. -/
def int32 : NType := ⟨true, 2⟩
def uint32 : NType := ⟨false, 2⟩
def uint8 : NType := ⟨false, 0⟩
def int8 : NType := ⟨true, 0⟩

theorem five_stores (w : Nat) (hw : 8 ≤ w) : Stores w [5] 5 := by
  have : 2 ^ 8 ≤ 2 ^ w := Nat.pow_le_pow_right (by decide) hw
  refine ⟨?_, ?_, rfl⟩
  · intro d hd
    rw [List.mem_singleton] at hd
    omega
  · intro d hd
    simp only [List.getLast?_singleton, Option.some.injEq] at hd
    omega

/-! ### C152: unsigned big integers -/

/-- C152: a conversion gives what the language makes of the number in that type. -/
theorem ubig_to_correct {w : Nat} {l : List Nat} {x : Nat} (h : Stores w l x) (T : NType) :
    Cast T.signed T.bits x (ubigTo w T l) := by
  unfold ubigTo
  rw [Ubig.to_native h, castTo_mod]
  exact castTo_cast T x

/-- C152, what the question really answers: the number is one of the type, and its digits take no more bytes than the type. -/
theorem ubig_safe_characterised {w : Nat} (hw : 0 < w) {l : List Nat} {x : Nat} (h : Stores w l x) (T : NType) :
    ubigSafe w T l = true ↔ Fits T.signed T.bits x ∧ l.length * (w / 8) ≤ T.bits / 8 := by
  have h8 := T.bits_pos
  have hm := max_lt T
  have hmin : (decide (T.min ≠ 0) && decide (ubigCmp w T l T.min = .lt)) = false := by
    unfold NType.min ubigCmp
    cases hs : T.signed
    · simp
    · have : (-2 ^ (T.bits - 1) : Int) < 0 := by
        have : (0 : Int) < 2 ^ (T.bits - 1) := by positivity
        omega
      simp [this]
  have hmax : ubigCmp w T l T.max = .gt ↔ T.max < x := by
    unfold ubigCmp
    have : ¬ ((T.max : Int) < 0) := by omega
    simp only [this, decide_false, Bool.and_false, Bool.false_eq_true, if_false, Int.toNat_natCast]
    exact cmpNative_gt hw (by omega) h hm.1 hm.2
  have hb : T.bits / 8 = 2 ^ T.level := by
    show 8 * 2 ^ T.level / 8 = _
    omega
  unfold ubigSafe
  rw [hmin, maxBytes_eq, hb, fits_nat]
  simp only [Bool.false_eq_true, if_false]
  by_cases h1 : l.length * (w / 8) > 2 ^ T.level
  · rw [if_pos h1]
    simp only [Bool.false_eq_true, false_iff]
    omega
  · rw [if_neg h1]
    by_cases h2 : T.max < x
    · rw [if_pos (hmax.2 h2)]
      simp only [Bool.false_eq_true, false_iff]
      omega
    · rw [if_neg (fun hc => h2 (hmax.1 hc))]
      simp only [true_iff]
      omega

/-- C152: a conversion found safe keeps the value. -/
theorem ubig_safe_keeps {w : Nat} (hw : 0 < w) {l : List Nat} {x : Nat} (h : Stores w l x) (T : NType)
    (hs : ubigSafe w T l = true) : ubigTo w T l = x := by
  have hf := ((ubig_safe_characterised hw h T).1 hs).1
  unfold ubigTo
  rw [Ubig.to_native h, castTo_mod]
  exact castTo_fits T hf

/-- C152, the part that holds of the other direction: when the type is made of whole digits, every number it has is found
safe.  That is so of all types in a debug build (digits of 8 bits) and of those from 32 bits in a release build. -/
theorem ubig_safe_partial {w : Nat} (hw : 0 < w) {l : List Nat} {x : Nat} (h : Stores w l x) (T : NType)
    (hd : w ∣ T.bits) : ubigSafe w T l = true ↔ Fits T.signed T.bits x := by
  rw [ubig_safe_characterised hw h]
  refine ⟨fun ⟨a, _⟩ => a, fun a => ⟨a, ?_⟩⟩
  obtain ⟨k, hk⟩ := hd
  have hx : x < 2 ^ T.bits := by
    have := (fits_nat T x).1 a
    have := (max_lt T).1
    omega
  have hl : l.length ≤ k := by
    apply Ubig.length_le_of_val_lt (w := w) h.2
    rw [h.3, ← pow_mul, ← hk]
    exact hx
  rw [hk]
  calc l.length * (w / 8) ≤ k * (w / 8) := Nat.mul_le_mul_right _ hl
    _ = w / 8 * k := Nat.mul_comm _ _
    _ ≤ w * k / 8 := by
      rw [Nat.le_div_iff_mul_le (by decide)]
      have := Nat.mul_le_mul_right k (Nat.div_mul_le_self w 8)
      calc w / 8 * k * 8 = w / 8 * 8 * k := Nat.mul_right_comm _ _ _
        _ ≤ w * k := this

example : Stores 32 [5] 5 ∧ 32 ∣ uint32.bits ∧ ubigSafe 32 uint32 [5] = true :=
  ⟨five_stores 32 (by decide), by decide, by decide +kernel⟩

/-- C152 is false of the program: with digits of 32 bits the number 5 is not safe for a type of one byte. -/
theorem ubig_safe_refuted : ¬ ∀ (l : List Nat) (x : Nat) (T : NType), Stores 32 l x →
    Fits T.signed T.bits x → ubigSafe 32 T l = true := by
  intro h
  have := h [5] 5 uint8 (five_stores 32 (by decide)) (by decide)
  revert this
  decide +kernel

/-! ### C153: signed big integers -/

/-- The integer that sign and magnitude denote. -/
def bigValue (neg : Bool) (x : Nat) : Int := if neg then -(x : Int) else x

/-- C153, what a conversion really gives: the sign is dropped for an unsigned type. -/
theorem big_to_characterised {w : Nat} {a : SBig} {x : Nat} (h : Stores w a.num x) (T : NType) :
    Cast T.signed T.bits (if T.signed then bigValue a.neg x else x) (bigTo w T a) := by
  unfold bigTo
  rw [Ubig.to_native h]
  have hm : x % 2 ^ T.bits < 2 ^ T.bits := Nat.mod_lt _ (Nat.pow_pos (by decide))
  by_cases hs : T.signed = true
  · rw [if_pos hs, if_pos hs, negTo_eq T _ (Nat.le_of_lt hm)]
    have : castTo T (if a.neg = true then -((x % 2 ^ T.bits : Nat) : Int) else ((x % 2 ^ T.bits : Nat) : Int)) =
        castTo T (bigValue a.neg x) := by
      apply castTo_congr
      have e : ((x % 2 ^ T.bits : Nat) : Int) ≡ x [ZMOD 2 ^ T.bits] := by
        rw [Int.natCast_mod, Nat.cast_pow]
        exact Int.mod_modEq _ _
      unfold bigValue
      split
      · exact e.neg
      · exact e
    rw [this]
    exact castTo_cast T _
  · rw [if_neg hs, if_neg hs]
    have hs' : T.signed = false := by simpa using hs
    have e : castTo T ((x % 2 ^ T.bits : Nat) : Int) = ((x % 2 ^ T.bits : Nat) : Int) := by
      apply castTo_fits
      rw [fits_nat]
      unfold NType.max
      rw [hs', if_neg (by decide)]
      omega
    rw [← e, castTo_mod]
    exact castTo_cast T _

/-- C153, the part of the conversion that holds: to a signed type, and of a number that is not negative to any. -/
theorem big_to_partial {w : Nat} {a : SBig} {x : Nat} (h : Stores w a.num x) (T : NType)
    (hp : T.signed = true ∨ a.neg = false) : Cast T.signed T.bits (bigValue a.neg x) (bigTo w T a) := by
  have := big_to_characterised h T
  rcases hp with hp | hp
  · rw [if_pos hp] at this; exact this
  · have e : bigValue a.neg x = x := by rw [hp]; rfl
    rw [e]
    rw [e, ite_self] at this
    exact this

example : Stores 32 (SBig.mk true [5]).num 5 ∧ int32.signed = true ∧ bigTo 32 int32 ⟨true, [5]⟩ = -5 :=
  ⟨five_stores 32 (by decide), rfl, by decide +kernel⟩

/-- C153 is false of the program: −5 becomes 5 in an unsigned type, and this is called safe. -/
theorem big_to_refuted : bigTo 32 uint32 ⟨true, [5]⟩ = 5 ∧ bigSafe 32 uint32 ⟨true, [5]⟩ = some true ∧
    ¬ Fits uint32.signed uint32.bits (-5) ∧ ¬ Cast uint32.signed uint32.bits (-5) 5 := by
  refine ⟨by decide +kernel, by decide +kernel, by decide, ?_⟩
  rintro ⟨-, h⟩
  revert h
  unfold Int.ModEq
  decide

theorem bigCmp_max {w : Nat} (hw : 0 < w) {a : SBig} {x : Nat} (h : Stores w a.num x) (T : NType) :
    ∃ o, bigCmp w T a T.max = some o ∧ (o = .gt ↔ a.neg = false ∧ T.max < x) := by
  have h8 := T.bits_pos
  have hm := max_lt T
  have hn : ¬ ((T.max : Int) < 0) := by omega
  unfold bigCmp
  simp only [hn, decide_false, Bool.and_false]
  cases ha : a.neg
  · have e : (if T.signed = true then Numeral.absSigned T.bits (T.max : Int) else some (T.max : Int).toNat) = some T.max := by
      split
      · unfold Numeral.absSigned
        rw [if_neg hn, Int.toNat_natCast]
      · rw [Int.toNat_natCast]
    rw [e]
    refine ⟨_, rfl, ?_⟩
    simp only [Bool.false_eq_true, if_false, true_and]
    exact cmpNative_gt hw (by omega) h hm.1 hm.2
  · exact ⟨.lt, rfl, by simp⟩

/-- C153, what the question really answers.  For an unsigned type every negative number is called safe.  For a signed type the answer
is right for a number that is not negative, and for a negative number if the type is narrower than `int`; for
another type the comparison with the least number is undefined. -/
theorem big_safe_characterised {w : Nat} (hw : 0 < w) {a : SBig} {x : Nat} (h : Stores w a.num x)
    (hz : x = 0 → a.neg = false) (T : NType) :
    bigSafe w T a =
      if T.signed then
        if a.neg = true ∧ 32 ≤ T.bits then none
        else some (decide (Fits T.signed T.bits (bigValue a.neg x)))
      else some (a.neg || decide (Fits T.signed T.bits x)) := by
  have h8 := T.bits_pos
  obtain ⟨o, ho, hgt⟩ := bigCmp_max hw h T
  unfold bigSafe
  cases hs : T.signed
  · have hmin : T.min = 0 := by unfold NType.min; rw [hs]; rfl
    rw [hmin, if_neg (by simp), ho]
    have hf := fits_nat T x
    rw [hs] at hf
    simp only [Option.bind_eq_bind, Option.bind_some, Bool.false_eq_true, if_false, Option.map_some]
    cases ha : a.neg
    · rw [ha] at hgt
      by_cases hc : T.max < x
      · rw [hgt.2 ⟨rfl, hc⟩]
        have : ¬ Fits false T.bits (x : Int) := by rw [hf]; omega
        simp [this]
      · have hne : o ≠ .gt := fun e => hc (hgt.1 e).2
        have : Fits false T.bits (x : Int) := by rw [hf]; omega
        simp [this, hne]
    · have hne : o ≠ .gt := fun e => by have := (hgt.1 e).1; rw [ha] at this; cases this
      simp [hne]
  · have hpos : (0 : Int) < 2 ^ (T.bits - 1) := by positivity
    have hposn : 0 < 2 ^ (T.bits - 1) := Nat.pow_pos (by decide)
    have hmin : T.min = -2 ^ (T.bits - 1) := by unfold NType.min; rw [hs]; rfl
    have hneg : T.min < 0 := by rw [hmin]; omega
    have hf := fits_nat T x
    rw [hs] at hf
    rw [if_pos (by omega)]
    simp only [if_true]
    cases ha : a.neg
    · have e : bigCmp w T a T.min = some .gt := by
        unfold bigCmp
        simp [ha, hs, hneg]
      rw [e, ho]
      rw [ha] at hgt
      have hv : bigValue false x = x := rfl
      rw [hv]
      by_cases hc : T.max < x
      · rw [hgt.2 ⟨rfl, hc⟩]
        have : ¬ Fits true T.bits (x : Int) := by rw [hf]; omega
        simp [this]
      · have hne : o ≠ .gt := fun e => hc (hgt.1 e).2
        have : Fits true T.bits (x : Int) := by rw [hf]; omega
        simp [this, hne]
    · have hx : 0 < x := by
        rcases Nat.eq_zero_or_pos x with h0 | h0
        · rw [hz h0] at ha; cases ha
        · exact h0
      by_cases h32 : 32 ≤ T.bits
      · have e : bigCmp w T a T.min = none := by
          unfold bigCmp
          have ex : Numeral.absSigned T.bits T.min = none := by
            unfold Numeral.absSigned
            rw [if_pos hneg, if_pos ⟨h32, by rw [hmin]; push_cast; rfl⟩]
          simp [ha, hs, hneg, ex]
        rw [e, if_pos ⟨rfl, h32⟩]
        rfl
      · have hhalf := pow_half_nat (b := T.bits) (by omega)
        have ex : Numeral.absSigned T.bits T.min = some (2 ^ (T.bits - 1)) := by
          unfold Numeral.absSigned
          rw [if_pos hneg, if_neg (fun hc => h32 hc.1), hmin, neg_neg]
          have : ((2 : Int) ^ (T.bits - 1)).toNat = 2 ^ (T.bits - 1) := by
            have e : ((2 ^ (T.bits - 1) : Nat) : Int) = 2 ^ (T.bits - 1) := by push_cast; rfl
            rw [← e, Int.toNat_natCast]
          rw [this, Nat.mod_eq_of_lt (by omega)]
        have e : bigCmp w T a T.min = some (Ubig.cmpNative w T.bits a.num (2 ^ (T.bits - 1))).swap := by
          unfold bigCmp
          simp [ha, hs, hneg, ex]
        have hc := cmpNative_gt (t := T.bits) (n := 2 ^ (T.bits - 1)) hw (by omega) h (by omega) (by omega)
        rw [e, if_neg (fun hc => h32 hc.2), ho]
        have hv : bigValue true x = -(x : Int) := rfl
        have hff := fits_neg T x hx
        rw [hs] at hff
        have hne : o ≠ .gt := fun e => by have := (hgt.1 e).1; rw [ha] at this; cases this
        rw [hv]
        by_cases hcx : 2 ^ (T.bits - 1) < x
        · rw [hc.2 hcx]
          have : ¬ Fits true T.bits (-(x : Int)) := by rw [hff]; omega
          simp [this, Ordering.swap]
        · have hng : Ubig.cmpNative w T.bits a.num (2 ^ (T.bits - 1)) ≠ .gt := fun e => hcx (hc.1 e)
          have : Fits true T.bits (-(x : Int)) := by rw [hff]; exact ⟨rfl, by omega⟩
          have hlt : (Ubig.cmpNative w T.bits a.num (2 ^ (T.bits - 1))).swap ≠ .lt := by
            cases hh : Ubig.cmpNative w T.bits a.num (2 ^ (T.bits - 1)) <;> simp_all [Ordering.swap]
          simp [this, hne, hlt]

/-- C153, the part of the question that holds: the answer is right for numbers that are not negative. -/
theorem big_safe_partial {w : Nat} (hw : 0 < w) {a : SBig} {x : Nat} (h : Stores w a.num x) (ha : a.neg = false)
    (T : NType) : bigSafe w T a = some (decide (Fits T.signed T.bits (bigValue a.neg x))) := by
  rw [big_safe_characterised hw h (fun _ => ha)]
  cases hs : T.signed
  · simp [ha, bigValue]
  · simp [ha]

example : Stores 32 (SBig.mk false [5]).num 5 ∧ bigSafe 32 int8 ⟨false, [5]⟩ = some true ∧
    bigSafe 32 int8 ⟨false, [200]⟩ = some false :=
  ⟨five_stores 32 (by decide), by decide +kernel, by decide +kernel⟩

/-- C153 is false of the program: asking whether a negative number fits `int` or a wider type is undefined. -/
theorem big_safe_refuted {w : Nat} (hw : 0 < w) {l : List Nat} {x : Nat} (h : Stores w l x) (hx : x ≠ 0) (T : NType)
    (hs : T.signed = true) (h32 : 32 ≤ T.bits) : bigSafe w T ⟨true, l⟩ = none := by
  rw [big_safe_characterised hw h (fun e => absurd e hx), if_pos hs, if_pos ⟨rfl, h32⟩]

example : Stores 32 [5] 5 ∧ int32.signed = true ∧ 32 ≤ int32.bits := ⟨five_stores 32 (by decide), rfl, by decide⟩

/-- C153: where the question is defined, for a signed type, a conversion found safe keeps the value. -/
theorem big_safe_keeps {w : Nat} (hw : 0 < w) {a : SBig} {x : Nat} (h : Stores w a.num x)
    (hz : x = 0 → a.neg = false) (T : NType) (ht : T.signed = true ∨ a.neg = false)
    (hs : bigSafe w T a = some true) : bigTo w T a = bigValue a.neg x := by
  have hc := big_to_partial h T ht
  have hf : Fits T.signed T.bits (bigValue a.neg x) := by
    rw [big_safe_characterised hw h hz] at hs
    rcases ht with ht | ht
    · rw [if_pos ht] at hs
      split at hs
      · cases hs
      · simpa using hs
    · cases hsg : T.signed
      · simpa [hsg, ht, bigValue] using hs
      · simpa [hsg, ht] using hs
  exact cast_unique (by have := T.bits_pos; omega) hc ⟨hf, Int.ModEq.refl _⟩

/-! ### C154: fractions -/

theorem umod_zero {a : UFrac} (ha : Finite a) : Bigint.umod a.num a.den = 0 ↔ ∃ n : Nat, uvalue a = n := by
  have hd : (a.den : ℚ) ≠ 0 := by exact_mod_cast ha
  unfold Bigint.umod
  rw [if_neg ha]
  constructor
  · intro h
    refine ⟨a.num / a.den, ?_⟩
    unfold uvalue
    rw [div_eq_iff hd]
    have := Nat.div_add_mod a.num a.den
    rw [h, Nat.add_zero, Nat.mul_comm] at this
    exact_mod_cast this.symm
  · rintro ⟨n, hn⟩
    unfold uvalue at hn
    rw [div_eq_iff hd] at hn
    have : a.num = n * a.den := by exact_mod_cast hn
    rw [this, Nat.mul_mod_left]

/-- C154: an unsigned fraction is found safe exactly when it is a whole number of the type. -/
theorem ufrac_safe_correct {a : UFrac} (ha : Finite a) (T : NType) :
    ufracSafe T a = true ↔ ∃ n : Nat, uvalue a = n ∧ Fits T.signed T.bits n := by
  obtain ⟨-, -, hgt⟩ := Bigfloat.ufrac_cmp_int_correct a ha (T.max : Int)
  have hmin : (decide (T.min ≠ 0) && decide (a.cmpInt T.min = .lt)) = false := by
    unfold NType.min UFrac.cmpInt
    cases hs : T.signed
    · simp
    · have : (-2 ^ (T.bits - 1) : Int) < 0 := by
        have : (0 : Int) < 2 ^ (T.bits - 1) := by positivity
        omega
      simp [this]
  have hu := umod_zero ha
  unfold ufracSafe
  rw [hmin, if_neg (by decide)]
  by_cases h1 : a.cmpInt (T.max : Int) = .gt
  · rw [if_pos h1]
    simp only [Bool.false_eq_true, false_iff]
    rintro ⟨n, hn, hf⟩
    have := hgt.1 h1
    rw [fits_nat] at hf
    rw [hn] at this
    have : T.max < n := by exact_mod_cast this
    omega
  · rw [if_neg h1]
    by_cases h2 : Bigint.umod a.num a.den = 0
    · rw [if_neg (not_not.2 h2)]
      simp only [true_iff]
      obtain ⟨n, hn⟩ := hu.1 h2
      refine ⟨n, hn, ?_⟩
      rw [fits_nat]
      by_contra hc
      apply h1
      rw [hgt, hn]
      have : T.max < n := by omega
      exact_mod_cast this
    · rw [if_pos h2]
      simp only [Bool.false_eq_true, false_iff]
      rintro ⟨n, hn, -⟩
      exact h2 (hu.2 ⟨n, hn⟩)

/-- C154: a conversion of an unsigned fraction drops what is after the point, then does as the language. -/
theorem ufrac_to_correct {a : UFrac} (ha : Finite a) (T : NType) :
    ∃ n : Nat, (n : ℚ) ≤ uvalue a ∧ uvalue a < n + 1 ∧ Cast T.signed T.bits n (ufracTo T a) := by
  have hpos : (0 : ℚ) < a.den := by
    have : 0 < a.den := Nat.pos_of_ne_zero ha
    exact_mod_cast this
  refine ⟨a.num / a.den, ?_, ?_, ?_⟩
  · unfold uvalue
    rw [le_div_iff₀ hpos]
    exact_mod_cast Nat.div_mul_le_self _ _
  · unfold uvalue
    rw [div_lt_iff₀ hpos]
    have h1 := Nat.div_add_mod a.num a.den
    have h2 := Nat.mod_lt a.num (Nat.pos_of_ne_zero ha)
    have h3 : a.num < (a.num / a.den + 1) * a.den := by
      rw [Nat.add_mul, Nat.one_mul, Nat.mul_comm (a.num / a.den)]
      omega
    exact_mod_cast h3
  · unfold ufracTo Bigint.udiv
    rw [if_neg ha]
    exact castTo_cast T _

theorem nat_unique {n m : Nat} {q : ℚ} (h : q = n) (h1 : (m : ℚ) ≤ q) (h2 : q < m + 1) : m = n := by
  rw [h] at h1 h2
  have a1 : m ≤ n := by exact_mod_cast h1
  have a2 : n < m + 1 := by exact_mod_cast h2
  omega

/-- C154: a conversion of an unsigned fraction found safe keeps the value. -/
theorem ufrac_safe_keeps {a : UFrac} (ha : Finite a) (T : NType) (hs : ufracSafe T a = true) :
    ((ufracTo T a : Int) : ℚ) = uvalue a := by
  obtain ⟨n, hn, hf⟩ := (ufrac_safe_correct ha T).1 hs
  obtain ⟨m, h1, h2, hc⟩ := ufrac_to_correct ha T
  have e := nat_unique hn h1 h2
  subst e
  rw [cast_unique (by have := T.bits_pos; omega) hc ⟨hf, Int.ModEq.refl _⟩, hn]
  rfl

example : Finite ⟨14, 7⟩ ∧ ufracSafe int8 ⟨14, 7⟩ = true ∧ ufracTo int8 ⟨14, 7⟩ = 2 :=
  ⟨by unfold Bigfloat.Spec.Finite; decide, by decide +kernel, by decide +kernel⟩

/-- C154, what the question really answers for a signed fraction: the sign is not looked at, and the bounds are those of the
unsigned type of the same size. -/
theorem frac_safe_characterised {a : Frac} (ha : Finite a.num) (T : NType) :
    fracSafe T a = true ↔ ∃ n : Nat, uvalue a.num = n ∧ n < 2 ^ T.bits := by
  unfold fracSafe
  rw [ufrac_safe_correct ha]
  have e : ∀ n : Nat, Fits T.toUnsigned.signed T.toUnsigned.bits (n : Int) ↔ n < 2 ^ T.bits := by
    intro n
    have e' : ((2 ^ T.bits : Nat) : Int) = 2 ^ T.bits := by push_cast; rfl
    show (0 ≤ (n : Int) ∧ (n : Int) < 2 ^ T.bits) ↔ _
    omega
  simp only [e]

/-- C154, what a conversion of a signed fraction gives: the fraction is cut; the sign is dropped for an unsigned type. -/
theorem frac_to_characterised {a : Frac} (ha : Finite a.num) (T : NType) :
    ∃ n : Nat, (n : ℚ) ≤ uvalue a.num ∧ uvalue a.num < n + 1 ∧
      Cast T.signed T.bits (if T.signed then bigValue a.neg n else n) (fracTo T a) := by
  obtain ⟨n, h1, h2, hc⟩ := ufrac_to_correct ha T.toUnsigned
  refine ⟨n, h1, h2, ?_⟩
  unfold fracTo
  by_cases hs : T.signed = true
  · rw [if_pos hs, if_pos hs]
    have hr := hc.1
    set r := ufracTo T.toUnsigned a.num
    have hr' : 0 ≤ r ∧ r < 2 ^ T.bits := hr
    have e' : ((2 ^ T.bits : Nat) : Int) = 2 ^ T.bits := by push_cast; rfl
    rw [negTo_eq T _ (by omega)]
    have : castTo T (if a.neg = true then -((r.toNat : Nat) : Int) else ((r.toNat : Nat) : Int)) =
        castTo T (bigValue a.neg n) := by
      apply castTo_congr
      rw [Int.toNat_of_nonneg hr'.1]
      unfold bigValue
      split
      · exact hc.2.neg
      · exact hc.2
    rw [this]
    exact castTo_cast T _
  · rw [if_neg hs, if_neg hs]
    have hs' : T.signed = false := by simpa using hs
    have e : T.toUnsigned = T := by
      cases T
      simp only at hs'
      rw [hs']
      rfl
    rw [e] at hc
    exact hc

/-- C154, the part of the question that holds for a signed fraction: a whole number of the type is found safe, and its
conversion keeps the value. -/
theorem frac_safe_partial {a : Frac} (ha : Finite a.num) (T : NType) (z : Int) (hv : Bigfloat.Spec.value a = z)
    (hf : Fits T.signed T.bits z) : fracSafe T a = true ∧ fracTo T a = z := by
  have h8 := T.bits_pos
  have hn : uvalue a.num = (z.natAbs : ℚ) ∧ z = bigValue a.neg z.natAbs := by
    have hnn : 0 ≤ uvalue a.num := Bigfloat.uvalue_nonneg a.num
    unfold Bigfloat.Spec.value at hv
    cases hneg : a.neg
    · rw [hneg, if_neg (by decide)] at hv
      have h0 : 0 ≤ z := by rw [hv] at hnn; exact_mod_cast hnn
      refine ⟨?_, ?_⟩
      · rw [hv]
        have : ((z.natAbs : Int) : ℚ) = (z : ℚ) := by rw [Int.natAbs_of_nonneg h0]
        rw [← this]
        rfl
      · show z = (z.natAbs : Int)
        omega
    · rw [hneg, if_pos rfl] at hv
      have h0 : z ≤ 0 := by
        have : (z : ℚ) ≤ 0 := by rw [← hv]; linarith
        exact_mod_cast this
      refine ⟨?_, ?_⟩
      · have : ((z.natAbs : Int) : ℚ) = -(z : ℚ) := by
          have : (z.natAbs : Int) = -z := by omega
          rw [this]
          push_cast
          rfl
        rw [show ((z.natAbs : Nat) : ℚ) = ((z.natAbs : Int) : ℚ) from rfl, this, ← hv, neg_neg]
      · show z = -(z.natAbs : Int)
        omega
  have hlt : z.natAbs < 2 ^ T.bits := by
    have hh := pow_half (b := T.bits) (by omega)
    have e' : ((2 ^ T.bits : Nat) : Int) = 2 ^ T.bits := by push_cast; rfl
    have hp : (0 : Int) < 2 ^ (T.bits - 1) := by positivity
    unfold Fits at hf
    split at hf <;> omega
  refine ⟨(frac_safe_characterised ha T).2 ⟨z.natAbs, hn.1, hlt⟩, ?_⟩
  obtain ⟨m, h1, h2, hc⟩ := frac_to_characterised ha T
  have e := nat_unique hn.1 h1 h2
  subst e
  have hz' : (if T.signed = true then bigValue a.neg z.natAbs else (z.natAbs : Int)) = z := by
    split
    · exact hn.2.symm
    · rename_i hs
      unfold Fits at hf
      rw [if_neg hs] at hf
      omega
  rw [hz'] at hc
  exact cast_unique (by omega) hc ⟨hf, Int.ModEq.refl _⟩

example : Finite (Frac.mk true ⟨10, 2⟩).num ∧ fracSafe int32 ⟨true, ⟨10, 2⟩⟩ = true ∧ fracTo int32 ⟨true, ⟨10, 2⟩⟩ = -5 ∧
    Fits int32.signed int32.bits (-5) := ⟨by unfold Bigfloat.Spec.Finite; decide, by decide +kernel, by decide +kernel, by decide⟩

/-- C154 is false of the program for signed fractions: 3000000000 is called safe for `int` and becomes negative; −5 is called
safe for `unsigned` and becomes 5. -/
theorem frac_safe_refuted :
    fracSafe int32 ⟨false, ⟨3000000000, 1⟩⟩ = true ∧ fracTo int32 ⟨false, ⟨3000000000, 1⟩⟩ = -1294967296 ∧
    fracSafe uint32 ⟨true, ⟨5, 1⟩⟩ = true ∧ fracTo uint32 ⟨true, ⟨5, 1⟩⟩ = 5 := by
  refine ⟨by decide +kernel, by decide +kernel, by decide +kernel, by decide +kernel⟩

end ELC.Convert
