import Verif.Numhash.Lemmas
import Verif.Whole.Props
import Verif.Bigfloat.Props
/-!
C192: equal numbers have equal hashes.
-/
namespace ELC.Numhash

open ELC.Hash (Word)
open ELC.Ubig (Digits)
open ELC.Ubig.Spec (val)
open ELC.Bigfloat (UFrac)
open ELC.Float ELC.Float.Spec

/-- C192 for `ubigint`: the hash depends on the number only, not on zeros in front. -/
theorem ubig_hash_of_value {w : Nat} {a b : Digits} (ha : Ubig.Spec.Digits w a) (hb : Ubig.Spec.Digits w b)
    (h : val w a = val w b) : hashUbig a = hashUbig b := ubig_hash ha hb h

example : hashUbig [3, 7] = hashUbig [3, 7, 0, 0] :=
  ubig_hash_of_value (w := 8) (by unfold Ubig.Spec.Digits; decide) (by unfold Ubig.Spec.Digits; decide) (by decide)

/-- C192 for `bigint`: the hash depends on the number only, and minus zero has the hash of zero. -/
theorem big_hash_of_value {w : Nat} {s t : Bool} {a b : Digits} (ha : Ubig.Spec.Digits w a) (hb : Ubig.Spec.Digits w b)
    (h : (if s then -(val w a : Int) else val w a) = if t then -(val w b : Int) else val w b) : hashBig s a = hashBig t b := by
  unfold hashBig withSign
  cases s <;> cases t <;> simp only [Bool.false_eq_true, if_true, if_false] at h ⊢
  · rw [ubig_hash ha hb (by omega)]
  · rw [hash_zero ha (by omega), hash_zero hb (by omega)]; rfl
  · rw [hash_zero ha (by omega), hash_zero hb (by omega)]; rfl
  · rw [ubig_hash ha hb (by omega)]

example : hashBig true [] = hashBig false [0] := big_hash_of_value (w := 32) (by unfold Ubig.Spec.Digits; decide) (by unfold Ubig.Spec.Digits; decide) (by decide)

theorem coprime_unique {a b c d : Nat} (h1 : Nat.Coprime a b) (h2 : Nat.Coprime c d) (hb : b ≠ 0) (hd : d ≠ 0)
    (h : (a : ℚ) / b = c / d) : a = c ∧ b = d := by
  have hb' : (b : ℚ) ≠ 0 := by exact_mod_cast hb
  have hd' : (d : ℚ) ≠ 0 := by exact_mod_cast hd
  rw [div_eq_div_iff hb' hd'] at h
  have e : a * d = c * b := by exact_mod_cast h
  have e1 : b ∣ d := (Nat.Coprime.dvd_mul_left h1.symm).mp (e ▸ Dvd.intro_left c rfl)
  have e2 : d ∣ b := (Nat.Coprime.dvd_mul_left h2.symm).mp (e ▸ Dvd.intro_left a rfl)
  have e3 := Nat.dvd_antisymm e1 e2
  subst e3
  exact ⟨Nat.eq_of_mul_eq_mul_right (Nat.pos_of_ne_zero hb) e, rfl⟩

/-- C192 for fractions, the part that holds: in lowest terms. -/
theorem frac_hash_partial {w : Nat} {s : Bool} {a b c d : Digits} (ha : Ubig.Spec.Digits w a) (hb : Ubig.Spec.Digits w b)
    (hc : Ubig.Spec.Digits w c) (hd : Ubig.Spec.Digits w d) (h1 : Nat.Coprime (val w a) (val w b))
    (h2 : Nat.Coprime (val w c) (val w d)) (hb0 : val w b ≠ 0) (hd0 : val w d ≠ 0)
    (h : (val w a : ℚ) / val w b = val w c / val w d) : hashSigned s a b = hashSigned s c d := by
  obtain ⟨e1, e2⟩ := coprime_unique h1 h2 hb0 hd0 h
  unfold hashSigned hashFrac
  rw [ubig_hash ha hc e1, ubig_hash hb hd e2]

example : hashSigned true [3] [7, 1] = hashSigned true [3, 0] [7, 1, 0] :=
  frac_hash_partial (w := 8) (by unfold Ubig.Spec.Digits; decide) (by unfold Ubig.Spec.Digits; decide)
    (by unfold Ubig.Spec.Digits; decide) (by unfold Ubig.Spec.Digits; decide) (by decide) (by decide) (by decide) (by decide) rfl

/-- C192 for fractions: after `simplify`, equal fractions other than zero have equal hashes. -/
theorem simplified_hash {w : Nat} {x y : UFrac} (hx : Bigfloat.Spec.Finite x) (hy : Bigfloat.Spec.Finite y) (h0 : x.num ≠ 0)
    (h : Bigfloat.Spec.uvalue x = Bigfloat.Spec.uvalue y) {s : Bool} {a b c d : Digits} (ha : Ubig.Spec.Stores w a x.simplify.num)
    (hb : Ubig.Spec.Stores w b x.simplify.den) (hc : Ubig.Spec.Stores w c y.simplify.num)
    (hd : Ubig.Spec.Stores w d y.simplify.den) : hashSigned s a b = hashSigned s c d := by
  obtain ⟨x1, x2, x3⟩ := Bigfloat.ufrac_simplify_correct x hx
  obtain ⟨y1, y2, y3⟩ := Bigfloat.ufrac_simplify_correct y hy
  have h0' : y.num ≠ 0 := by
    intro h'
    apply h0
    have : Bigfloat.Spec.uvalue x = 0 := by rw [h]; unfold Bigfloat.Spec.uvalue; rw [h']; simp
    exact (Bigfloat.neg_uvalue_eq_zero hx).mp this
  refine frac_hash_partial ha.digits hb.digits hc.digits hd.digits ?_ ?_ ?_ ?_ ?_
  · rw [ha.value, hb.value]; exact x2 h0
  · rw [hc.value, hd.value]; exact y2 h0'
  · rw [hb.value]; exact x3
  · rw [hd.value]; exact y3
  · rw [ha.value, hb.value, hc.value, hd.value]
    show Bigfloat.Spec.uvalue x.simplify = Bigfloat.Spec.uvalue y.simplify
    rw [x1, y1, h]

theorem small_frac_hash {x y : Nat} (hx : x < 2 ^ 58) (hy : y < 2 ^ 58) : (hashFrac [x] [y]).toNat = 2 * (13 * x + y) := by
  unfold hashFrac
  have e1 : (BitVec.ofNat 64 (2 * x) * 13#64).toNat = 26 * x := by
    have s : (13#64).toNat = 13 := rfl
    rw [BitVec.toNat_mul, BitVec.toNat_ofNat, s, Nat.mod_eq_of_lt (a := 2 * x) (by omega), Nat.mod_eq_of_lt (by omega)]
    omega
  rw [hash_one (by omega), hash_one (by omega), BitVec.toNat_add, e1, BitVec.toNat_ofNat, Nat.mod_eq_of_lt (a := 2 * y) (by omega),
    Nat.mod_eq_of_lt (by omega)]
  omega

theorem mul_seven {n : Nat} (hl : n < 18446744073709551616) : n * 7 % 18446744073709551616 = n ↔ n = 0 ∨ n = 9223372036854775808 := by
  constructor
  · intro e
    obtain ⟨k, hk⟩ : ∃ k, n * 7 = 18446744073709551616 * k + n := by
      refine ⟨n * 7 / 18446744073709551616, ?_⟩
      have := Nat.div_add_mod (n * 7) (18446744073709551616)
      rw [e] at this
      exact this.symm
    clear e
    have d3 : 3 * n = 9223372036854775808 * k := by linarith
    have k7 : k < 6 := by
      by_contra h
      have : 18446744073709551616 * 6 ≤ 18446744073709551616 * k := Nat.mul_le_mul_left _ (Nat.le_of_not_lt h)
      linarith
    clear hk
    interval_cases k <;> omega
  · rintro (rfl | rfl) <;> norm_num

/-- Two fractions of one digit each have the same hash exactly when `13*n+d` is the same. -/
theorem small_frac_hash_characterised {w n d n' d' : Nat} (hw : w ≤ 58) (hn : n < 2 ^ w) (hd : d < 2 ^ w) (hn' : n' < 2 ^ w)
    (hd' : d' < 2 ^ w) : hashFrac [n] [d] = hashFrac [n'] [d'] ↔ 13 * n + d = 13 * n' + d' := by
  have b : 2 ^ w ≤ 2 ^ 58 := Nat.pow_le_pow_right (by norm_num) hw
  have k1 := small_frac_hash (lt_of_lt_of_le hn b) (lt_of_lt_of_le hd b)
  have k2 := small_frac_hash (lt_of_lt_of_le hn' b) (lt_of_lt_of_le hd' b)
  constructor
  · intro h
    rw [h, k2] at k1
    omega
  · intro h
    apply BitVec.eq_of_toNat_eq
    rw [k1, k2, h]

/-- A fraction and its opposite have the same hash exactly when the hash is zero or has its highest bit only. -/
theorem opposite_hash_characterised (a b : Digits) :
    hashSigned true a b = hashSigned false a b ↔
      hashSigned false a b = 0#64 ∨ hashSigned false a b = 0x8000000000000000#64 := by
  show hashFrac a b * 7#64 = hashFrac a b ↔ hashFrac a b = 0#64 ∨ hashFrac a b = 9223372036854775808#64
  generalize hashFrac a b = h
  have z : (0#64).toNat = 0 := rfl
  have t : (9223372036854775808#64).toNat = 9223372036854775808 := rfl
  have s : (7#64).toNat = 7 := rfl
  have hl : h.toNat < 18446744073709551616 := h.isLt
  have m := mul_seven hl
  constructor
  · intro e
    have e' : h.toNat * 7 % 18446744073709551616 = h.toNat := by
      have := congrArg BitVec.toNat e
      rw [BitVec.toNat_mul, s] at this
      exact this
    rcases m.1 e' with k | k
    · exact .inl (BitVec.eq_of_toNat_eq (k.trans z.symm))
    · exact .inr (BitVec.eq_of_toNat_eq (k.trans t.symm))
  · rintro (rfl | rfl) <;> decide

/-- C192 is false of zero too: the opposite of the fraction zero is the same number, and has another hash (`==` says they differ,
C16). -/
theorem negative_zero_hash_refuted : Bigfloat.Spec.value (Bigfloat.Frac.neg' (.ofInt 0)) = Bigfloat.Spec.value (.ofInt 0) ∧
    Bigfloat.Frac.eq (Bigfloat.Frac.neg' (.ofInt 0)) (.ofInt 0) = false ∧ hashSigned true [] [1] ≠ hashSigned false [] [1] := by
  refine ⟨by simp [Bigfloat.Spec.value, Bigfloat.Frac.neg', Bigfloat.Spec.uvalue, Bigfloat.Frac.ofInt, Bigfloat.UFrac.ofNat], ?_, ?_⟩
  · decide
  · decide +kernel

/-- C192 is false for fractions: a half and two quarters compare equal, and have different hashes; so have zero and zero quarters,
which `simplify` leaves as it is. -/
theorem frac_hash_refuted : UFrac.eq ⟨1, 2⟩ ⟨2, 4⟩ = true ∧ hashFrac [1] [2] ≠ hashFrac [2] [4] ∧
    UFrac.eq ⟨0, 1⟩ ⟨0, 4⟩ = true ∧ UFrac.simplify ⟨0, 4⟩ = ⟨0, 4⟩ ∧ hashFrac [] [1] ≠ hashFrac [] [4] := by
  refine ⟨by decide, by decide +kernel, by decide, by decide +kernel, by decide +kernel⟩

/-- C192 is false between types: no native number but zero has the hash of the same number as a `ubigint` of one digit, though
they compare equal. -/
theorem mixed_hash_refuted {w n : Nat} (hw : w ≤ 63) (hn : n < 2 ^ w) (h0 : n ≠ 0) :
    Ubig.Spec.Stores w [n] n ∧ hashInt n ≠ hashUbig [n] := by
  refine ⟨⟨by simpa [Ubig.Spec.Digits] using hn, by intro d hd; simp at hd; omega, by simp [val]⟩, ?_⟩
  have hx := digit_bits hw hn
  rw [hash_one hx]
  unfold hashInt
  rw [BitVec.ofInt_natCast]
  intro h
  have := congrArg BitVec.toNat h
  rw [BitVec.toNat_ofNat, BitVec.toNat_ofNat, Nat.mod_eq_of_lt (by omega), Nat.mod_eq_of_lt (by omega)] at this
  omega

/-- So a new table (five buckets) of `ubigint` looks for a native number in the wrong bucket, unless it is divisible by five. -/
theorem mixed_bucket_characterised {w n : Nat} (hw : w ≤ 63) (hn : n < 2 ^ w) :
    bucket (hashInt n) 5 = bucket (hashUbig [n]) 5 ↔ 5 ∣ n := by
  have hx := digit_bits hw hn
  unfold bucket
  rw [hash_one hx]
  unfold hashInt
  rw [BitVec.ofInt_natCast, BitVec.toNat_ofNat, BitVec.toNat_ofNat, Nat.mod_eq_of_lt (by omega : n < 2 ^ 64),
    Nat.mod_eq_of_lt (by omega : 2 * n < 2 ^ 64)]
  omega

variable {I : Info} {f : Format}

/-- C192 for native floating point numbers, exactly: the hash is the whole part; it is undefined for the numbers up to minus one and
from `2^64` on. -/
theorem float_hash_characterised (hn : IsNative I f) {v : Whole.Num} (hv : Plain f v.mag) :
    hashFloat I v = if v.value f ≤ -1 ∨ 2 ^ 64 ≤ v.value f then none else some (BitVec.ofNat 64 ⌊v.value f⌋₊) := by
  have h := hn.agrees
  have hlt := (Sqrt.plain_lt h).1 hv
  have h0 := Whole.mag_nonneg' h hlt
  have hfl := Whole.floor_mag h hlt.le
  have hn1 : ((units f.p v.mag / one I : ℕ) : ℤ) = 0 ↔ magnitude f v.mag < 1 := by
    rw [← hfl, Int.floor_eq_zero_iff, Set.mem_Ico]
    exact ⟨fun h => h.2, fun h => ⟨h0, h⟩⟩
  have hnat : ⌊magnitude f v.mag⌋₊ = units f.p v.mag / one I := by
    have := Int.floor_toNat (magnitude f v.mag)
    rw [← this, hfl, Int.toNat_natCast]
  unfold hashFloat
  rw [Whole.toUint_eq h hlt]
  unfold Whole.Num.value
  cases hneg : v.neg with
  | false =>
    simp only [Bool.false_and, Bool.false_eq_true, if_false]
    by_cases hc : magnitude f v.mag < 2 ^ 64
    · rw [if_pos hc, if_neg (by rintro (h' | h') <;> linarith), hnat]; rfl
    · rw [if_neg hc, if_pos (Or.inr (not_lt.mp hc))]; rfl
  | true =>
    simp only [Bool.true_and, if_true]
    by_cases hc : magnitude f v.mag < 1
    · have e := hn1.mpr hc
      have e' : units f.p v.mag / one I = 0 := by exact_mod_cast e
      rw [if_pos (by linarith), if_neg (by rintro (h' | h') <;> linarith), e', Nat.floor_of_nonpos (by linarith)]
      rfl
    · have hne : units f.p v.mag / one I ≠ 0 := fun e => hc (hn1.mp (by exact_mod_cast e))
      rw [if_pos (show -magnitude f v.mag ≤ -1 ∨ _ from Or.inl (by linarith [not_lt.mp hc]))]
      by_cases hc2 : magnitude f v.mag < 2 ^ 64
      · rw [if_pos hc2, Option.bind_some, if_pos (by simpa using hne)]
      · rw [if_neg hc2]; rfl

/-- C192 for native floating point numbers: equal numbers have equal hashes, zero and minus zero too. -/
theorem float_hash_of_value (hn : IsNative I f) {v u : Whole.Num} (hv : Plain f v.mag) (hu : Plain f u.mag)
    (h : v.value f = u.value f) : hashFloat I v = hashFloat I u := by
  rw [float_hash_characterised hn hv, float_hash_characterised hn hu, h]

/-- C192 is false for native floating point numbers: minus one has no hash. -/
theorem float_hash_refuted : hashFloat float64 ⟨true, 0x3FF0000000000000⟩ = none := by decide +kernel

example : hashFloat float64 ⟨false, 0x4004000000000000⟩ = some 2#64 := by decide +kernel

end ELC.Numhash
