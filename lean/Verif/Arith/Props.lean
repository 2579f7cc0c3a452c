import Verif.Arith.Lemmas
import Verif.Arith.Factor
/-! The properties C35 to C39. -/
namespace ELC.Arith
open Spec

/-! ### C35 -/

/-- C35: `integer_log` of the unbounded integers ends, and returns the logarithm. -/
theorem integer_log_correct {a b : Nat} (ha : 1 ≤ a) (hb : 2 ≤ b) :
    ∃ k, IsLog a b k ∧ Returns (fun fuel => integerLog 0 fuel a b) k := by
  obtain ⟨F, k, h⟩ := logImpl_spec hb (Or.inl rfl : Exact 0 a b) _ (b ^ 1) 1 1 0 rfl rfl (by decide) (by simp) rfl ha
  obtain ⟨h1, h2, h3⟩ := h F (Nat.le_refl _)
  rw [Nat.zero_add] at h2 h3
  refine ⟨k, ⟨h2, h3⟩, F, ?_⟩
  intro fuel hf
  have := (h fuel hf).1
  rw [Nat.pow_one] at this
  simp [integerLog, this]

theorem integerLog_exact {M a b : Nat} (ha : 1 ≤ a) (hb : 2 ≤ b) (hM : 1 < M) (hbM : b < M) (hE : Exact M a b) :
    ∃ k, IsLog a b k ∧ Returns (fun fuel => integerLog M fuel a b) k := by
  obtain ⟨F, k, h⟩ := logImpl_spec hb hE _ (b ^ 1) 1 1 0 rfl rfl (by decide) (by simp) rfl ha
  obtain ⟨h1, h2, h3⟩ := h F (Nat.le_refl _)
  rw [Nat.zero_add] at h2 h3
  refine ⟨k, ⟨h2, h3⟩, F, ?_⟩
  intro fuel hf
  have := (h fuel hf).1
  rw [Nat.pow_one] at this
  have hm1 : 1 % M = 1 := Nat.mod_eq_of_lt hM
  have hm2 : b % M = b := Nat.mod_eq_of_lt hbM
  simp [integerLog, hm1, hm2, this]

/-- C35: `integer_log` of a type with modulus `M`, as long as products of numbers up to `a` and `b` do not overflow. -/
theorem integer_log_native_partial {M a b : Nat} (ha : 1 ≤ a) (hb : 2 ≤ b) (hM : max a b * max a b < M) :
    ∃ k, IsLog a b k ∧ Returns (fun fuel => integerLog M fuel a b) k := by
  have hle : max a b ≤ max a b * max a b := Nat.le_mul_of_pos_right _ (by omega)
  exact integerLog_exact ha hb (by omega) (by omega) (exact_of_max ha hM)

example : IsLog 1000 10 3 ∧ integerLog (2 ^ 32) 10 1000 10 = some 3 ∧ max 1000 10 * max 1000 10 < 2 ^ 32 := by
  refine ⟨by unfold IsLog; decide, by decide, by decide⟩

theorem logImpl_zero (M a : Nat) (ha : 0 < a) : ∀ (fuel tester num : Nat), logImpl M a fuel tester 0 num = none := by
  intro fuel
  induction fuel with
  | zero => intro _ _; rfl
  | succ f ih =>
    intro tester num
    simp only [logImpl, Nat.zero_mul, Nat.zero_mod, if_pos ha, ih, Option.bind_none]

theorem logImpl_up {M a fuel tester lv num next : Nat} (h1 : lv * lv % M = next) (h2 : next < a)
    (h3 : ∀ f t n, logImpl M a f t next n = none) : logImpl M a fuel tester lv num = none := by
  cases fuel with
  | zero => rfl
  | succ f => simp only [logImpl, h1, if_pos h2, h3, Option.bind_none]

/-- C35 fails for native types: `integer_log(2^64-1, 2)` does not return. -/
theorem integer_log_native_refuted : NeverReturns (fun fuel => integerLog (2 ^ 64) fuel (2 ^ 64 - 1) 2) := by
  intro fuel
  have h0 := logImpl_zero (2 ^ 64) (2 ^ 64 - 1) (by decide)
  have h1 : ∀ f t n, logImpl (2 ^ 64) (2 ^ 64 - 1) f t (2 ^ 32) n = none :=
    fun f t n => logImpl_up (next := 0) (by decide) (by decide) h0
  have h2 : ∀ f t n, logImpl (2 ^ 64) (2 ^ 64 - 1) f t (2 ^ 16) n = none :=
    fun f t n => logImpl_up (next := 2 ^ 32) (by decide) (by decide) h1
  have h3 : ∀ f t n, logImpl (2 ^ 64) (2 ^ 64 - 1) f t (2 ^ 8) n = none :=
    fun f t n => logImpl_up (next := 2 ^ 16) (by decide) (by decide) h2
  have h4 : ∀ f t n, logImpl (2 ^ 64) (2 ^ 64 - 1) f t 16 n = none :=
    fun f t n => logImpl_up (next := 2 ^ 8) (by decide) (by decide) h3
  have h5 : ∀ f t n, logImpl (2 ^ 64) (2 ^ 64 - 1) f t 4 n = none :=
    fun f t n => logImpl_up (next := 16) (by decide) (by decide) h4
  have h6 : ∀ f t n, logImpl (2 ^ 64) (2 ^ 64 - 1) f t 2 n = none :=
    fun f t n => logImpl_up (next := 4) (by decide) (by decide) h5
  have e1 : (1 : Nat) % 2 ^ 64 = 1 := by decide
  have e2 : (2 : Nat) % 2 ^ 64 = 2 := by decide
  simp only [integerLog, e1, e2, h6, Option.map_none]

theorem logImpl_high {j a : Nat} (ha : 2 ^ 2 ^ j < a) : ∀ (d i : Nat), i + d = j →
    ∀ f t n, logImpl (2 ^ 2 ^ (j + 1)) a f t (2 ^ 2 ^ i) n = none := by
  have hsq : ∀ i, 2 ^ 2 ^ i * 2 ^ 2 ^ i = 2 ^ 2 ^ (i + 1) := fun i => by
    rw [← Nat.pow_add, Nat.pow_succ, Nat.mul_two]
  intro d
  induction d with
  | zero =>
    rintro i rfl f t n
    have h0 : 0 < a := Nat.lt_of_le_of_lt (Nat.zero_le _) ha
    exact logImpl_up (next := 0) (by rw [hsq, Nat.add_zero, Nat.mod_self]) h0 (logImpl_zero _ a h0)
  | succ d ih =>
    intro i hi f t n
    have h1 : 2 ^ 2 ^ (i + 1) ≤ 2 ^ 2 ^ j := Nat.pow_le_pow_right (by decide) (Nat.pow_le_pow_right (by decide) (by omega))
    have h2 : 2 ^ 2 ^ j < 2 ^ 2 ^ (j + 1) := Nat.pow_lt_pow_right (by decide) (Nat.pow_lt_pow_right (by decide) (by omega))
    exact logImpl_up (next := 2 ^ 2 ^ (i + 1)) (by rw [hsq]; exact Nat.mod_eq_of_lt (by omega)) (by omega)
      (ih (i + 1) (by omega))

/-- **C35, the logarithm to the base two in a type of `2^(j+1)` bits**: up to `2^(2^j)`, half the bits, it returns the logarithm, for
every greater number it does not return. -/
theorem integer_log_two_characterised {j a : Nat} (hj : 1 ≤ j) (ha : 1 ≤ a) :
    (a ≤ 2 ^ 2 ^ j → ∃ k, IsLog a 2 k ∧ Returns (fun fuel => integerLog (2 ^ 2 ^ (j + 1)) fuel a 2) k) ∧
    (2 ^ 2 ^ j < a → NeverReturns (fun fuel => integerLog (2 ^ 2 ^ (j + 1)) fuel a 2)) := by
  have hsq : 2 ^ 2 ^ (j + 1) = 2 ^ 2 ^ j * 2 ^ 2 ^ j := by
    rw [← Nat.pow_add, Nat.pow_succ, Nat.mul_two]
  have h4 : 2 ^ 2 ^ 1 ≤ 2 ^ 2 ^ j := Nat.pow_le_pow_right (by decide) (Nat.pow_le_pow_right (by decide) hj)
  have h4' : 4 ≤ 2 ^ 2 ^ j := h4
  have h16 : 4 * 2 ^ 2 ^ j ≤ 2 ^ 2 ^ j * 2 ^ 2 ^ j := Nat.mul_le_mul_right _ h4'
  constructor
  · intro hle
    refine integerLog_exact ha (by decide) (by omega) (by omega) (Or.inr ⟨?_, by omega⟩)
    rw [hsq]
    refine lt_of_le_of_lt (Nat.mul_le_mul_right _ hle) ((Nat.mul_lt_mul_left (by omega)).mpr (by omega))
  · intro hlt fuel
    have e1 : 1 % 2 ^ 2 ^ (j + 1) = 1 := Nat.mod_eq_of_lt (by omega)
    have e2 : 2 % 2 ^ 2 ^ (j + 1) = 2 := Nat.mod_eq_of_lt (by omega)
    have := logImpl_high hlt j 0 (by omega) fuel 1 1
    simp only [integerLog, e1, e2]
    rw [show logImpl (2 ^ 2 ^ (j + 1)) a fuel 1 2 1 = none from this]
    rfl

/-- With 64 bits: the logarithm of `2^32` is returned, that of `2^32 + 1` is not. -/
example : (∃ k, IsLog (2 ^ 32) 2 k ∧ Returns (fun fuel => integerLog (2 ^ 64) fuel (2 ^ 32) 2) k) ∧
    NeverReturns (fun fuel => integerLog (2 ^ 64) fuel (2 ^ 32 + 1) 2) :=
  ⟨(integer_log_two_characterised (j := 5) (by decide) (by decide)).1 (by decide),
    (integer_log_two_characterised (j := 5) (by decide) (by decide)).2 (by decide)⟩

/-- C35: `pow` of the big integers. -/
theorem pow_correct (a b : Nat) : powBig a b = a ^ b := by
  unfold powBig; rw [powLoop_eq, Nat.one_mul]

/-- C35: `pow` of the signed big integers. -/
theorem pow_signed_correct (a : Int) (b : Nat) : powSigned a b = a ^ b := by
  unfold powSigned
  simp only [pow_correct, Nat.cast_pow]
  rcases Int.natAbs_eq a with h | h
  · have : ¬ a < 0 := by omega
    simp only [this, decide_false, Bool.false_and]
    rw [if_neg (by decide), ← h]
  · by_cases ha : a < 0
    · by_cases hb : b % 2 = 1
      · simp only [ha, hb, decide_true, Bool.and_self, if_true, zero_sub]
        conv_rhs => rw [h]
        rw [Odd.neg_pow (Nat.odd_iff.2 hb)]
      · simp only [ha, hb, decide_true, decide_false, Bool.and_false]
        conv_rhs => rw [h]
        rw [Even.neg_pow (Nat.even_iff.2 (by omega))]
        rfl
    · have h0 : a = 0 := by omega
      subst h0
      simp

example : powBig 3 13 = 1594323 ∧ powSigned (-2) 5 = -32 ∧ powSigned (-2) 6 = 64 := by
  refine ⟨by rw [pow_correct]; rfl, by rw [pow_signed_correct]; rfl, by rw [pow_signed_correct]; rfl⟩

/-- C35: `factorial(n, start)` for the unbounded integers is the product of `start … start+n-1`, as long as the last
factor plus one and the count plus one fit in 32 bits. -/
theorem factorial_partial {n start : Nat} (h : start + n < 2 ^ 32) (hn : n + 1 < 2 ^ 32) :
    Returns (fun fuel => factorial 0 fuel n start) (rising start n) := by
  refine ⟨n + 1, ?_⟩
  intro fuel hf
  have := factorial_eq 0 n start fuel h hn (by omega)
  rwa [Nat.mod_zero] at this

/-- C35: the same for a type that wraps around. -/
theorem factorial_native_partial {M n start : Nat} (h : start + n < 2 ^ 32) (hn : n + 1 < 2 ^ 32) :
    Returns (fun fuel => factorial M fuel n start) (rising start n % M) :=
  ⟨n + 1, fun fuel hf => factorial_eq M n start fuel h hn (by omega)⟩

/-- From one, the product is the factorial. -/
theorem rising_one (n : Nat) : rising 1 n = n.factorial := by
  induction n with
  | zero => simp [rising]
  | succ n ih =>
    unfold rising at *
    rw [Finset.prod_range_succ, ih, Nat.factorial_succ, Nat.add_comm, Nat.mul_comm]

example : factorial 0 20 20 1 = some 2432902008176640000 := by decide +kernel

/-- C35 fails when the end of the range wraps around: one factor, `2^32-1`, gives 1. -/
theorem factorial_refuted :
    Returns (fun fuel => factorial 0 fuel 1 (2 ^ 32 - 1)) 1 ∧ rising (2 ^ 32 - 1) 1 ≠ 1 := by
  refine ⟨⟨1, ?_⟩, by simp [rising]⟩
  intro fuel hf
  obtain ⟨f, rfl⟩ : ∃ f, fuel = f + 1 := ⟨fuel - 1, by omega⟩
  show factorial 0 (f + 1) 1 (2 ^ 32 - 1) = some 1
  rw [factorial.eq_def]
  dsimp only
  rw [if_pos (by decide), factLoop, dif_neg (by decide)]

/-! ### C36 -/

/-- C36: the big integers' `binary_gcd`, unless the first number is zero and the second even. -/
theorem binary_gcd_partial {x y : Nat} (h : x ≠ 0 ∨ y % 2 = 1 ∨ y = 0) : binaryGcd big x y = some (Nat.gcd x y) := by
  obtain ⟨r, hr⟩ := binaryLoop_total big (max x y) (fun _ _ => rfl) x y 0 (by omega) (by omega)
  have := binaryLoop_sound big x y 0 r hr (by tauto)
  unfold binaryGcd
  rw [hr, this, Nat.pow_zero, Nat.mul_one]
  exact congrArg some (Nat.mod_zero _)

/-- C36 fails otherwise: of `gcd(0, y)` only the odd part comes out. -/
theorem binary_gcd_zero_characterised {y : Nat} (hy : y ≠ 0) :
    ∃ m, m % 2 = 1 ∧ y = 2 ^ trailing y * m ∧ binaryGcd big 0 y = some m := by
  obtain ⟨h1, h2⟩ := shift_trailing hy
  refine ⟨y >>> trailing y, h1, h2, ?_⟩
  have hc : big.ctz y = trailing y := if_neg hy
  have h0 : big.ctz 0 = 0 := rfl
  unfold binaryGcd
  rw [binaryLoop, dif_neg hy, if_pos (by rfl), h0, hc, Nat.zero_shiftRight,
    if_pos (Nat.pos_of_ne_zero (fun h => by rw [h] at h1; cases h1)), binaryLoop, dif_pos rfl]
  simp [big]

/-- C36 fails: `gcd(0, 12)` is 3. -/
theorem binary_gcd_refuted : binaryGcd big 0 12 = some 3 ∧ Nat.gcd 0 12 = 12 := by
  refine ⟨by decide +kernel, by decide⟩

example : binaryGcd big 48 180 = some 12 := by decide +kernel

/-- C36: `binary_gcd` of the types of 8 and 16 bits. -/
theorem binary_gcd_small_correct {w x y : Nat} (hw : w < 32) (hx : x < 2 ^ w) (hy : y < 2 ^ w) :
    binaryGcd (native w) x y = some (Nat.gcd x y) := by
  have hs : ∀ c, c ≤ 2 ^ w - 1 → (native w).shiftOk ((native w).ctz c) = true := by
    intro c hc
    have hlt : (native w).ctz c < 32 := by
      unfold Kind.ctz
      split
      · exact hw
      · next h0 =>
        have := trailing_lt (w := w) h0 (by have := Nat.two_pow_pos w; omega)
        omega
    show decide ((native w).ctz c < max 32 w) = true
    rw [decide_eq_true_eq]
    omega
  obtain ⟨r, hr⟩ := binaryLoop_total (native w) (2 ^ w - 1) hs x y 0 (by omega) (by omega)
  have hcond : x ≠ 0 ∨ y % 2 = 1 ∨ y = 0 ∨ trailing y ≤ (native w).zeroCount := by
    by_cases h : y = 0
    · exact Or.inr (Or.inr (Or.inl h))
    · exact Or.inr (Or.inr (Or.inr (trailing_lt h hy).le))
  have := binaryLoop_sound (native w) x y 0 r hr hcond
  unfold binaryGcd
  rw [hr, this, Nat.pow_zero, Nat.mul_one]
  congr 1
  apply Nat.mod_eq_of_lt
  show _ < 2 ^ w
  by_cases h : y = 0
  · subst h; rwa [Nat.gcd_zero_right]
  · exact lt_of_le_of_lt (Nat.gcd_le_right x (Nat.pos_of_ne_zero h)) hy

/-- C36 fails for wider types: with a second number other than zero the function always ends with a shift by the full
width, which is undefined. -/
theorem binary_gcd_wide_refuted {w x y : Nat} (hw : 32 ≤ w) (hy : y ≠ 0) : binaryGcd (native w) x y = none := by
  apply binaryLoop_none _ _ _ _ _ hy
  simp [native, Kind.shiftOk, hw]

example : binaryGcd (native 16) 48 180 = some 12 ∧ binaryGcd (native 32) 48 180 = none :=
  ⟨by decide +kernel, binary_gcd_wide_refuted (by decide) (by decide)⟩

/-- C36: with the shift of 0 by the full width taken as processors do it, `binary_gcd` is right for the unsigned types of
every width, and for zero. -/
theorem binary_gcd_processor_correct {w x y : Nat} (hx : x < 2 ^ w) (hy : y < 2 ^ w) :
    binaryGcd (processor w) x y = some (Nat.gcd x y) := by
  obtain ⟨r, hr⟩ := binaryLoop_total (processor w) (2 ^ w - 1) (fun _ _ => rfl) x y 0 (by omega) (by omega)
  have hcond : x ≠ 0 ∨ y % 2 = 1 ∨ y = 0 ∨ trailing y ≤ (processor w).zeroCount := by
    by_cases h : y = 0
    · exact Or.inr (Or.inr (Or.inl h))
    · exact Or.inr (Or.inr (Or.inr (trailing_lt h hy).le))
  have := binaryLoop_sound (processor w) x y 0 r hr hcond
  unfold binaryGcd
  rw [hr, this, Nat.pow_zero, Nat.mul_one]
  congr 1
  apply Nat.mod_eq_of_lt
  show _ < 2 ^ w
  by_cases h : y = 0
  · subst h; rwa [Nat.gcd_zero_right]
  · exact lt_of_le_of_lt (Nat.gcd_le_right x (Nat.pos_of_ne_zero h)) hy

example : binaryGcd (processor 64) 48 180 = some 12 ∧ binaryGcd (processor 64) 0 12 = some 12 := by
  refine ⟨by decide +kernel, by decide +kernel⟩

/-- C36: `euclidean_gcd` of the unsigned types. -/
theorem euclidean_gcd_partial {x y : Nat} (h : x ≠ 0 ∨ y = 0) : euclideanGcd x y = some (Nat.gcd x y) :=
  euclidean_spec y x h

/-- C36 fails otherwise: `euclidean_gcd(0, y)` divides by zero. -/
theorem euclidean_gcd_refuted {y : Nat} (hy : y ≠ 0) : euclideanGcd 0 y = none := by
  rw [euclideanGcd, dif_neg hy, dif_pos (by omega), dif_pos rfl]

example : euclideanGcd 48 180 = some 12 ∧ euclideanGcd 7 0 = some 7 := by
  refine ⟨by decide +kernel, by decide +kernel⟩

/-- C36 fails for numbers of different signs: `euclidean_gcd(-4, 6)` does not return a result. -/
theorem euclidean_gcd_signed_refuted : NeverReturns (fun fuel => euclideanSigned fuel (-4) 6) := by
  have h2 : ∀ fuel, euclideanSigned fuel 2 (-4) = none ∧ euclideanSigned fuel (-4) 2 = none := by
    intro fuel
    induction fuel with
    | zero => exact ⟨rfl, rfl⟩
    | succ f ih =>
      have e1 : (2 : Int).tmod (-4) = 2 := by decide
      refine ⟨?_, ?_⟩
      · simp [euclideanSigned, e1, ih.2]
      · simp [euclideanSigned, e1, ih.2]
  intro fuel
  cases fuel with
  | zero => rfl
  | succ f =>
    have e1 : (6 : Int).tmod (-4) = 2 := by decide
    simp [euclideanSigned, e1, (h2 f).2]

/-- C36: `lehmer_gcd` of any two numbers that fit in memory returns their greatest common divisor.  All its
transformations turn into steps of Euclid's algorithm and exchanges, because the differences that should be negative are
zero; therefore it does not matter what `/` delivers, but for `1/0` and `0/1`. -/
theorem lehmer_gcd_correct {W x y : Nat} {quot : Nat → Nat → Nat} (hW : 0 < W) (h0 : quot 1 0 = quot 0 1)
    (hx : x < W ^ (2 ^ 64 - 2)) (hy : y < W ^ (2 ^ 64 - 2)) :
    ∃ n, ∀ fuel, n ≤ fuel → lehmerGcd W quot fuel x y = some (Nat.gcd x y) := by
  have hkey : ∀ a b : Nat, b ≤ a → a < W ^ (2 ^ 64 - 2) → b < W ^ (2 ^ 64 - 2) →
      ∃ n, ∀ fuel, n ≤ fuel →
        (if digits W b ≤ 1 then binaryGcd big a b else lehmerOuter W quot fuel (digits W b) a b) = some (Nat.gcd a b) := by
    intro a b hba ha hb
    have hd : digits W b < 2 ^ 64 := digits_fits hb
    by_cases h1 : digits W b ≤ 1
    · refine ⟨0, fun fuel _ => ?_⟩
      rw [if_pos h1, binary_gcd_partial (by omega)]
    · obtain ⟨n, hn⟩ := lehmerOuter_ends hW h0 (a + b) (digits W b) a b (Nat.le_refl _) ha hb hd
      refine ⟨n + 2, fun fuel hf => ?_⟩
      obtain ⟨k, rfl⟩ : ∃ k, fuel = n + k + 2 := ⟨fuel - n - 2, by omega⟩
      obtain ⟨g, hg⟩ := hn k
      rw [if_neg h1, hg, lehmerOuter_sound _ _ _ _ _ (by omega) hg]
  unfold lehmerGcd
  dsimp only
  by_cases hlt : x < y
  · rw [if_pos hlt, Nat.gcd_comm]
    exact hkey y x (by omega) hy hx
  · rw [if_neg hlt]
    exact hkey x y (by omega) hx hy

/-- C36: whatever `lehmer_gcd` returns is the greatest common divisor, without any condition on `/`. -/
theorem lehmer_gcd_sound {W fuel x y g : Nat} {quot : Nat → Nat → Nat} (h : lehmerGcd W quot fuel x y = some g) :
    g = Nat.gcd x y := by
  unfold lehmerGcd at h
  dsimp only at h
  have hkey : ∀ a b : Nat, b ≤ a →
      (if digits W b ≤ 1 then binaryGcd big a b else lehmerOuter W quot fuel (digits W b) a b) = some g → g = Nat.gcd a b := by
    intro a b hba h
    split at h
    · rw [binary_gcd_partial (by omega)] at h
      injection h with h; exact h.symm
    · exact lehmerOuter_sound _ _ _ _ _ (by omega) h
  by_cases hlt : x < y
  · rw [if_pos hlt] at h
    rw [Nat.gcd_comm]
    exact hkey _ _ (by omega) h
  · rw [if_neg hlt] at h
    exact hkey _ _ (by omega) h

/-- Both a step of Euclid's algorithm and an exchange happen. -/
example : lehmerInner (· / ·) 5 1 0 0 1 9 5 = some (1, 0, 0, 1) ∧ lehmerInner (· / ·) 5 1 0 0 1 8 5 = some (0, 1, 1, 0) :=
  ⟨by decide +kernel, by decide +kernel⟩

/-- C36: `gcd` of big integers of every size that fits in memory, unless the first number is zero and the second even and
below 256 digits. -/
theorem gcd_big_partial {W x y : Nat} {quot : Nat → Nat → Nat} (hW : 0 < W) (h0 : quot 1 0 = quot 0 1)
    (hx : x < W ^ (2 ^ 64 - 2)) (hy : y < W ^ (2 ^ 64 - 2))
    (h : x ≠ 0 ∨ y % 2 = 1 ∨ y = 0 ∨ 256 ≤ digits W y) :
    ∃ n, ∀ fuel, n ≤ fuel → gcdBig W quot fuel x y = some (Nat.gcd x y) := by
  unfold gcdBig
  by_cases hd : max (digits W x) (digits W y) ≥ 256
  · simp only [if_pos hd]
    exact lehmer_gcd_correct hW h0 hx hy
  · simp only [if_neg hd]
    exact ⟨0, fun _ _ => binary_gcd_partial (by omega)⟩

/-- C36: below 256 digits no condition on the memory is needed. -/
theorem gcd_big_short {W fuel x y : Nat} {quot : Nat → Nat → Nat} (hd : digits W x < 256 ∧ digits W y < 256)
    (h : x ≠ 0 ∨ y % 2 = 1 ∨ y = 0) : gcdBig W quot fuel x y = some (Nat.gcd x y) := by
  unfold gcdBig
  rw [if_neg (by omega)]
  exact binary_gcd_partial h

/-- The hypotheses are met by numbers of any number of digits above 256: `8 W^k` and `5 W^k` have `W^k` in common. -/
example {W k : Nat} (hW : 9 ≤ W) (hk : k + 1 ≤ 2 ^ 64 - 2) :
    ∃ n, ∀ fuel, n ≤ fuel → gcdBig W (· / ·) fuel (8 * W ^ k) (5 * W ^ k) = some (W ^ k) := by
  have hp : 0 < W ^ k := Nat.pow_pos (by omega)
  have h8 : 8 * W ^ k < W ^ (2 ^ 64 - 2) :=
    lt_of_lt_of_le (by rw [Nat.pow_succ, Nat.mul_comm (W ^ k)]; exact Nat.mul_lt_mul_of_pos_right (by omega) hp)
      (Nat.pow_le_pow_right (by omega) hk)
  have := gcd_big_partial (W := W) (quot := (· / ·)) (x := 8 * W ^ k) (y := 5 * W ^ k) (by omega) (by decide) h8
    (lt_of_le_of_lt (Nat.mul_le_mul_right _ (by decide)) h8) (Or.inl (by omega))
  rwa [Nat.gcd_mul_right, show Nat.gcd 8 5 = 1 by decide, Nat.one_mul] at this

example : gcdBig 256 (· / ·) 0 (48 * 256) (180 * 256) = some (12 * 256) := by
  rw [gcd_big_short ⟨by rw [show 48 * 256 = 48 * 256 ^ 1 by rfl, digits_pow (by decide) (by decide)]; decide,
    by rw [show 180 * 256 = 180 * 256 ^ 1 by rfl, digits_pow (by decide) (by decide)]; decide⟩ (Or.inl (by decide))]
  rfl

/-! ### C37 -/

/-- C37: `is_prime_num` decides primality from 4 on. -/
theorem is_prime_correct {root : Nat → Nat} (hr : Root root) {n : Nat} (h : 4 ≤ n) : isPrimeNum root n = true ↔ n.Prime := by
  unfold isPrimeNum
  rw [if_neg (by omega)]
  have hm : n % 6 < 6 := Nat.mod_lt _ (by decide)
  by_cases h6 : n % 6 = 1 ∨ n % 6 = 5
  · rw [if_neg (by rcases h6 with h6 | h6 <;> rw [h6] <;> decide)]
    exact noPreCheck_iff hr (by omega) h6
  · rw [if_pos (by
      have hc : n % 6 = 0 ∨ n % 6 = 2 ∨ n % 6 = 3 ∨ n % 6 = 4 := by omega
      rcases hc with hc | hc | hc | hc <;> rw [hc] <;> decide)]
    constructor
    · intro h; cases h
    · intro hp
      have : 5 ≤ n := by
        rcases Nat.lt_or_ge 4 n with h' | h'
        · exact h'
        · have : n = 4 := by omega
          subst this; revert hp; decide
      exact absurd (prime_mod_six hp this) h6

/-- The true square root meets what is asked of the floating-point one. -/
theorem root_exists : Root Nat.sqrt := sqrt_root

example : isPrimeNum Nat.sqrt 97 = true ∧ isPrimeNum Nat.sqrt 91 = false := by
  refine ⟨by decide +kernel, by decide +kernel⟩

/-! ### C38 -/

/-- C38: the next prime, unless `a` is a multiple of 6 and `a+1` is not prime. -/
theorem prime_at_least_partial {root : Nat → Nat} (hr : Root root) {a : Nat} (h2 : 2 ≤ a) (h : a % 6 ≠ 0 ∨ (a + 1).Prime) :
    ∃ p, NextPrime a p ∧ Returns (fun fuel => primeAtLeast root fuel a) p := by
  obtain ⟨p, hp⟩ := exists_nextPrime a
  refine ⟨p, hp, p + 1, ?_⟩
  intro fuel hf
  obtain ⟨hp1, hp2, hp3⟩ := hp
  unfold primeAtLeast
  dsimp only
  by_cases h4 : a < 4
  · rw [if_pos h4]
    have : a.Prime := by
      have : a = 2 ∨ a = 3 := by omega
      rcases this with rfl | rfl
      · exact Nat.prime_two
      · exact Nat.prime_three
    have := hp3 a this (Nat.le_refl _)
    congr 1; omega
  · rw [if_neg h4]
    have hp5 : 5 ≤ p := by
      by_contra hlt
      have : p = 4 := by omega
      subst this; revert hp1; decide
    have hpm := prime_mod_six hp1 hp5
    by_cases h1 : a % 6 = 1 ∧ noPreCheck root a = true
    · rw [if_pos h1]
      have := hp3 a ((noPreCheck_iff hr (by omega) (Or.inl h1.1)).1 h1.2) (Nat.le_refl _)
      congr 1; omega
    · rw [if_neg h1]
      by_cases h0 : a % 6 = 0
      · have hpr : (a + 1).Prime := by tauto
        rw [if_neg (by omega)]
        obtain ⟨f, rfl⟩ : ∃ f, fuel = f + 1 := ⟨fuel - 1, by omega⟩
        rw [upLoop, if_pos ((noPreCheck_iff hr (by omega) (Or.inl (by omega))).2 hpr)]
        have := hp3 _ hpr (by omega)
        congr 1; omega
      · rw [if_pos h0]
        have hne : a % 6 = 1 → p ≠ a := by
          intro h6 he
          exact h1 ⟨h6, (noPreCheck_iff hr (by omega) (Or.inl h6)).2 (he ▸ hp1)⟩
        exact upLoop_spec hr hp1 (p - (a + (5 - a % 6))) _ rfl (by omega) (by omega) (by omega)
          (fun q hq hle => hp3 q hq (by omega)) fuel (by omega)

/-- C38: the same for the prime strictly above. -/
theorem prime_above_partial {root : Nat → Nat} (hr : Root root) {a : Nat} (h2 : 1 ≤ a) (h : (a + 1) % 6 ≠ 0 ∨ (a + 2).Prime) :
    ∃ p, NextPrime (a + 1) p ∧ Returns (fun fuel => primeAbove root fuel a) p :=
  prime_at_least_partial hr (by omega) h

/-- C38: the value is never below `a`. -/
theorem prime_at_least_ge {root : Nat → Nat} {fuel a r : Nat} (h : primeAtLeast root fuel a = some r) : a ≤ r :=
  (primeAtLeast_sound h).1

/-- C38 fails: from 24 the next "prime" is 27. -/
theorem prime_at_least_refuted : Returns (fun fuel => primeAtLeast Nat.sqrt fuel 24) 27 ∧ ¬ Nat.Prime 27 := by
  refine ⟨⟨1, ?_⟩, by decide⟩
  intro fuel hf
  obtain ⟨f, rfl⟩ : ∃ f, fuel = f + 1 := ⟨fuel - 1, by omega⟩
  have h1 : noPreCheck Nat.sqrt 25 = false := by decide +kernel
  have h2 : noPreCheck Nat.sqrt 27 = true := by decide +kernel
  simp [primeAtLeast, upLoop, h1, h2]

example : primeAtLeast Nat.sqrt 10 90 ≠ some 97 ∧ primeAtLeast Nat.sqrt 10 91 = some 97 := by
  refine ⟨by decide +kernel, by decide +kernel⟩

/-- C38: the previous prime is searched from `a` rounded down to one above a multiple of 6 (for a multiple of 6, from 5
below it). -/
theorem prime_at_most_characterised {root : Nat → Nat} (hr : Root root) {a : Nat} (h7 : 7 ≤ a) :
    ∃ p, PrevPrime (a - (if a % 6 ≠ 0 then a % 6 - 1 else 5)) p ∧ primeAtMost root a = some p := by
  have hm : a % 6 < 6 := Nat.mod_lt _ (by decide)
  have key : ∀ c, 7 ≤ c → c % 6 = 1 → ∃ p, PrevPrime c p ∧ downLoop root c = some p := by
    intro c hc h6
    obtain ⟨p, hp⟩ := exists_prevPrime (a := c) (by omega)
    have h5 : 5 ≤ p := hp.2.2 5 (by decide) (by omega)
    exact ⟨p, hp, downLoop_spec hr hp.1 h5 c hc h6 hp.2.1 hp.2.2⟩
  unfold primeAtMost
  rw [if_neg (show ¬ a < 4 by omega)]
  by_cases h1 : a % 6 = 1 ∧ noPreCheck root a = true
  · rw [if_pos h1, if_pos (show a % 6 ≠ 0 by omega), h1.1]
    have := (noPreCheck_iff hr (by omega) (Or.inl h1.1)).1 h1.2
    exact ⟨a, ⟨this, by omega, fun q _ h => by omega⟩, rfl⟩
  · rw [if_neg h1]
    split_ifs with h0
    · exact key _ (by omega) (by omega)
    · exact key _ (by omega) (by omega)

/-- C38: the previous prime, unless it is one of the numbers the rounding skips. -/
theorem prime_at_most_partial {root : Nat → Nat} (hr : Root root) {a : Nat} (h7 : 7 ≤ a)
    (h5 : a % 6 = 5 → ¬ a.Prime) (h0 : a % 6 = 0 → ¬ (a - 1).Prime) : ∃ p, PrevPrime a p ∧ primeAtMost root a = some p := by
  obtain ⟨p, ⟨hp1, hp2, hp3⟩, h⟩ := prime_at_most_characterised hr h7
  refine ⟨p, ⟨hp1, by omega, ?_⟩, h⟩
  intro q hq hle
  apply hp3 q hq
  have hm : a % 6 < 6 := Nat.mod_lt _ (by decide)
  by_cases hq5 : q < 5
  · split_ifs <;> omega
  · have hqm := prime_mod_six hq (by omega)
    have hn1 : a % 6 = 5 → q ≠ a := fun h he => h5 h (he ▸ hq)
    have hn2 : a % 6 = 0 → q ≠ a - 1 := fun h he => h0 h (he ▸ hq)
    split_ifs <;> omega

/-- C38 fails: the greatest prime up to 12 comes out as 7, that up to 11 as 7, that up to 5 as 1. -/
theorem prime_at_most_refuted :
    primeAtMost Nat.sqrt 12 = some 7 ∧ primeAtMost Nat.sqrt 11 = some 7 ∧ primeAtMost Nat.sqrt 5 = some 1 ∧
      Nat.Prime 11 ∧ Nat.Prime 5 := by
  refine ⟨by decide +kernel, by decide +kernel, by decide +kernel, by decide, by decide⟩

example : primeAtMost Nat.sqrt 100 = some 97 := by decide +kernel

/-! ### C39 -/

/-- C39: whatever the factorisation returns are primes in ascending order whose product is the number. -/
theorem factorize_sound_partial {root : Nat → Nat} (hr : Root root) {fuel n : Nat} {l : List Nat}
    (h : factorize root fuel n = some l) : l.prod = n ∧ (∀ p ∈ l, p.Prime) ∧ l.Pairwise (· ≤ ·) := by
  obtain ⟨h1, h2, h3⟩ := factorLoop_sound hr _ _ _ _ (Or.inl rfl) h
  exact ⟨h1, fun p hp => (h2 p hp).1, h3⟩

/-- C39: whatever the factorisation without repetition returns are the prime divisors, each once and in ascending order. -/
theorem factorize_unique_sound_partial {root : Nat → Nat} (hr : Root root) {fuel n : Nat} {l : List Nat}
    (h : factorizeUnique root fuel n = some l) : (∀ p, p ∈ l ↔ p.Prime ∧ p ∣ n) ∧ l.Pairwise (· < ·) := by
  obtain ⟨h1, _, h3⟩ := uniqueLoop_sound hr _ _ _ _ (Or.inl rfl) h
  exact ⟨h1, h3⟩

/-- C39: with all prime factors below 137 the factorisation returns. -/
theorem factorize_smooth_partial {root : Nat → Nat} (hr : Root root) (hs : ∀ a < 200, root a = Nat.sqrt a) {n : Nat} (hn : 1 ≤ n)
    (h : ∀ p, p.Prime → p ∣ n → p < 137) :
    ∃ l, Returns (fun fuel => factorize root fuel n) l ∧ l.prod = n ∧ (∀ p ∈ l, p.Prime) ∧ l.Pairwise (· ≤ ·) := by
  have hall := fun fuel hf => (smooth_returns hs 37 0 n rfl hn (fun q hq hd => ⟨hq.two_le, h q hq hd⟩) fuel hf).1
  have hdet : ∀ l : List Nat, l.prod = n → (∀ p ∈ l, p.Prime) → l.Pairwise (· ≤ ·) → l = n.primeFactorsList := by
    intro l h1 h2 h3
    exact (Nat.primeFactorsList_unique h1 h2).eq_of_pairwise (fun a b _ _ => Nat.le_antisymm) h3
      (Nat.primeFactorsList_sorted n).pairwise
  have hval : ∀ fuel, 42 ≤ fuel → factorize root fuel n = some n.primeFactorsList := by
    intro fuel hf
    obtain ⟨l, hl⟩ := hall fuel hf
    have hl' : factorize root fuel n = some l := hl
    obtain ⟨h1, h2, h3⟩ := factorize_sound_partial hr hl'
    rw [hl', hdet l h1 h2 h3]
  have := factorize_sound_partial hr (hval 42 (Nat.le_refl _))
  exact ⟨_, ⟨42, hval⟩, this⟩

/-- C39: and so does the one without repetition. -/
theorem factorize_unique_smooth_partial {root : Nat → Nat} (hs : ∀ a < 200, root a = Nat.sqrt a) {n : Nat} (hn : 1 ≤ n)
    (h : ∀ p, p.Prime → p ∣ n → p < 137) (fuel : Nat) (hf : 42 ≤ fuel) : ∃ l, factorizeUnique root fuel n = some l :=
  (smooth_returns hs 37 0 n rfl hn (fun q hq hd => ⟨hq.two_le, h q hq hd⟩) fuel hf).2

/-- C39 fails: the factorisation of 137 does not end. -/
theorem factorize_refuted {root : Nat → Nat} (hs : ∀ a < 200, root a = Nat.sqrt a) :
    NeverReturns (fun fuel => factorize root fuel 137) ∧ NeverReturns (fun fuel => factorizeUnique root fuel 137) :=
  ⟨fun fuel => (stuck hs fuel 0 (by decide)).1, fun fuel => (stuck hs fuel 0 (by decide)).2⟩

/-- C38: the search for the next prime always ends. -/
theorem prime_above_ends {root : Nat → Nat} (hr : Root root) (a : Nat) : ∃ p, a < p ∧ Returns (fun fuel => primeAbove root fuel a) p := by
  obtain ⟨p, hp⟩ := primeAbove_total hr a
  exact ⟨p, returns_lt hp, hp⟩

/-- C38, what comes out for the multiples of 6 the theorem above leaves out: the least number not below `a` that passes the
test on divisors and is one or three above a multiple of 6. -/
theorem prime_at_least_characterised {root : Nat → Nat} (hr : Root root) {a : Nat} (h4 : 4 ≤ a) (h6 : a % 6 = 0) :
    ∃ r, Returns (fun fuel => primeAtLeast root fuel a) r ∧ a ≤ r ∧ (r % 6 = 1 ∨ r % 6 = 3) ∧ Passes root r ∧
      ∀ x, a ≤ x → x < r → (x % 6 = 1 ∨ x % 6 = 3) → ¬ Passes root x := by
  obtain ⟨r, F, hF⟩ := primeAbove_total hr (a - 1)
  have e : ∀ fuel, primeAbove root fuel (a - 1) = primeAtLeast root fuel a := fun fuel => by
    unfold primeAbove; rw [show a - 1 + 1 = a by omega]
  have e' : ∀ fuel, primeAtLeast root fuel a = upLoop root fuel (a + 1) := fun fuel => by
    unfold primeAtLeast; rw [if_neg (by omega), if_neg (by omega), if_neg (by omega)]
  refine ⟨r, ⟨F, fun fuel hf => (e fuel).symm.trans (hF fuel hf)⟩, ?_⟩
  have h : primeAbove root F (a - 1) = some r := hF F (Nat.le_refl _)
  rw [e, e'] at h
  obtain ⟨h1, h2, h3, h4'⟩ := upLoop_one F (a + 1) r (by omega) h
  exact ⟨by omega, h2, h3, fun x hx1 hx2 hx3 => h4' x (by omega) hx2 hx3⟩

/-- C39, exactly when the factorisation ends: all prime factors are among the numbers got from 2 by asking for the next prime
again and again (`Visits`).  Otherwise it never does. -/
theorem factorize_characterised {root : Nat → Nat} (hr : Root root) {n : Nat} (hn : 1 ≤ n) :
    ((∀ p, p.Prime → p ∣ n → Visits root 2 p) → Returns (fun fuel => factorize root fuel n) n.primeFactorsList) ∧
    ((∃ p, p.Prime ∧ p ∣ n ∧ ¬ Visits root 2 p) → NeverReturns (fun fuel => factorize root fuel n)) := by
  constructor
  · intro h
    obtain ⟨F, hF⟩ := loops_end hr n _ 2 n rfl (Nat.le_refl _) hn (fun q hq hd => ⟨Nat.le_of_dvd hn hd, h q hq hd⟩)
    refine ⟨F, fun fuel hf => ?_⟩
    obtain ⟨l, hl⟩ := (hF fuel hf).1
    have hl' : factorize root fuel n = some l := hl
    obtain ⟨h1, h2, h3⟩ := factorize_sound_partial hr hl'
    have : l = n.primeFactorsList := (Nat.primeFactorsList_unique h1 h2).eq_of_pairwise (fun a b _ _ => Nat.le_antisymm) h3
      (Nat.primeFactorsList_sorted n).pairwise
    rw [← this]; exact hl'
  · rintro ⟨p, hp, hd, hv⟩ fuel
    by_contra hc
    obtain ⟨l, hl⟩ := Option.ne_none_iff_exists'.1 hc
    have hl' : factorize root fuel n = some l := hl
    obtain ⟨h1, h2, _⟩ := factorize_sound_partial hr hl'
    have hperm := Nat.primeFactorsList_unique h1 h2
    have hmem : p ∈ l := hperm.mem_iff.2 ((Nat.mem_primeFactorsList (by omega)).2 ⟨hp, hd⟩)
    exact hv (factorLoop_visits fuel 2 n l hl' p hmem)

/-- C39: the same for the factorisation without repetition. -/
theorem factorize_unique_characterised {root : Nat → Nat} (hr : Root root) {n : Nat} (hn : 1 ≤ n) :
    ((∀ p, p.Prime → p ∣ n → Visits root 2 p) → ∃ F, ∀ fuel ≥ F, ∃ l, factorizeUnique root fuel n = some l) ∧
    ((∃ p, p.Prime ∧ p ∣ n ∧ ¬ Visits root 2 p) → NeverReturns (fun fuel => factorizeUnique root fuel n)) := by
  constructor
  · intro h
    obtain ⟨F, hF⟩ := loops_end hr n _ 2 n rfl (Nat.le_refl _) hn (fun q hq hd => ⟨Nat.le_of_dvd hn hd, h q hq hd⟩)
    exact ⟨F, fun fuel hf => (hF fuel hf).2⟩
  · rintro ⟨p, hp, hd, hv⟩ fuel
    by_contra hc
    obtain ⟨l, hl⟩ := Option.ne_none_iff_exists'.1 hc
    have hl' : factorizeUnique root fuel n = some l := hl
    have hmem : p ∈ l := ((factorize_unique_sound_partial hr hl').1 p).2 ⟨hp, hd⟩
    exact hv (uniqueLoop_visits fuel 2 n l hl' p hmem)

/-- C39: which primes are visited, as far as this is known here: those below 137, but not 137. -/
theorem visits_small {root : Nat → Nat} (hr : Root root) (hs : ∀ a < 200, root a = Nat.sqrt a) :
    (∀ p, p.Prime → p < 137 → Visits root 2 p) ∧ ¬ Visits root 2 137 := by
  have hstuck := factorize_refuted hs
  constructor
  · intro p hp h137
    by_contra hv
    obtain ⟨l, ⟨F, hF⟩, _⟩ := factorize_smooth_partial hr hs (n := p) hp.one_le
      (fun q hq hd => by rw [(Nat.prime_dvd_prime_iff_eq hq hp).1 hd]; exact h137)
    have := (factorize_characterised hr hp.one_le).2 ⟨p, hp, dvd_rfl, hv⟩ F
    have hf : factorize root F p = some l := hF F (Nat.le_refl _)
    have hf' : factorize root F p = none := this
    rw [hf] at hf'; cases hf'
  · intro hv
    have h137 : Nat.Prime 137 := by decide +kernel
    obtain ⟨F, hF⟩ := (factorize_characterised hr (n := 137) (by decide)).1
      (fun q hq hd => by rw [(Nat.prime_dvd_prime_iff_eq hq h137).1 hd]; exact hv)
    have hf : factorize root F 137 = some _ := hF F (Nat.le_refl _)
    have hf' : factorize root F 137 = none := hstuck.1 F
    rw [hf] at hf'; cases hf'

example : factorize Nat.sqrt 50 (2 * 2 * 3 * 131) = some [2, 2, 3, 131] ∧ factorizeUnique Nat.sqrt 50 (2 * 2 * 3 * 131) = some [2, 3, 131] := by
  refine ⟨by decide +kernel, by decide +kernel⟩

/-! ### rounding division -/

/-- C60: `ceil_div(a, b)` is the least `q` with `a ≤ q * b`; undefined for `b = 0`. -/
theorem ceil_div_correct {a b : Nat} (hb : b ≠ 0) : ∃ q, ceilDiv a b = some q ∧ a ≤ q * b ∧ ∀ q', a ≤ q' * b → q ≤ q' := by
  have hd := Nat.div_add_mod a b
  have hm := Nat.mod_lt a (Nat.pos_of_ne_zero hb)
  unfold ceilDiv
  rw [if_neg hb]
  refine ⟨_, rfl, ?_, ?_⟩
  · split_ifs with h
    · rw [Nat.add_mul, Nat.one_mul, Nat.mul_comm]; omega
    · rw [Nat.add_zero, Nat.mul_comm]; omega
  · intro q' hq
    by_contra hlt
    split_ifs at hlt with h
    · have : q' * b ≤ a / b * b := Nat.mul_le_mul_right _ (by omega)
      rw [Nat.mul_comm (a / b)] at this
      omega
    · have : (q' + 1) * b ≤ a / b * b := Nat.mul_le_mul_right _ (by omega)
      rw [Nat.mul_comm (a / b), Nat.add_mul] at this
      omega

example : ceilDiv 7 2 = some 4 ∧ ceilDiv 8 2 = some 4 ∧ ceilDiv 8 0 = none := by decide

end ELC.Arith
