import Verif.Native.Lemmas
/-!
Properties C155 to C157: native integers divided by big ones, powers with signed exponents, and small operations on native
integers.

`Convert.Spec.Fits signed bits a` says that `a` is a number of the native type; `Bigint.Spec.value` and `Bigfloat.Spec.value` are
the integer and the rational number that a big number denotes; `Int.tdiv` and `Int.tmod` are division and remainder of the
language, rounding towards zero.
-/
namespace ELC.Native
open ELC.Convert (NType castTo negTo castTo_fits castTo_cast castTo_mod castTo_congr)
open ELC.Convert.Spec (Fits Cast)
open Bigfloat (UFrac Frac)
open Bigfloat.Spec (uvalue)
open Bigint (Big)
open Spec (IsCeil SameSign)

def int32 : NType := ⟨true, 2⟩
def uint32 : NType := ⟨false, 2⟩
def int64 : NType := ⟨true, 3⟩
def int8 : NType := ⟨true, 0⟩
def uint8 : NType := ⟨false, 0⟩

/-! ### C155: a native integer divided by a big one -/

/-- C155, what a signed native integer divided by a signed big one really gives: the sign is wrong for a negative divisor. -/
theorem div_big_characterised {T : NType} (hs : T.signed = true) {a : Int} (hf : Fits T.signed T.bits a) (hm : a ≠ T.min)
    {b : Big} (hb : b.num ≠ 0) : divBig T a b =
      some (if b.neg then -(a.tdiv (Bigint.Spec.value b)) else a.tdiv (Bigint.Spec.value b)) := by
  unfold divBig
  rw [absN_eq T a hf (fun _ => hm), Option.bind_some, neg_iff T hs]
  have hv := (Bigint.div_correct ⟨false, a.natAbs⟩ b hb).1
  have hle : (Bigint.Spec.value (Bigint.div ⟨false, a.natAbs⟩ b)).natAbs ≤ a.natAbs := by
    rw [hv, Int.natAbs_tdiv, value_natAbs, value_natAbs]
    exact Nat.div_le_self _ _
  obtain ⟨f1, f2⟩ := fits_of_natAbs_le hf (fun _ => hm) hs hle
  rw [bigTo_signed hs _ f1, copyNeg_signed hs f2, hv]
  have e : Bigint.Spec.value ⟨false, a.natAbs⟩ = (a.natAbs : Int) := rfl
  rw [e, Option.some.injEq]
  cases hn : b.neg
  · by_cases h0 : a < 0
    · have : a = -(a.natAbs : Int) := by omega
      simp only [h0, decide_true, Bool.true_bne, Bool.not_false, if_true, Bool.false_eq_true, if_false]
      conv_rhs => rw [this]
      rw [Int.neg_tdiv]
    · have : a = (a.natAbs : Int) := by omega
      simp only [h0, decide_false, bne_self_eq_false, Bool.false_eq_true, if_false]
      conv_rhs => rw [this]
  · by_cases h0 : a < 0
    · have : a = -(a.natAbs : Int) := by omega
      simp only [h0, decide_true, bne_self_eq_false, Bool.false_eq_true, if_false, if_true]
      conv_rhs => rw [this]
      rw [Int.neg_tdiv, neg_neg]
    · have : a = (a.natAbs : Int) := by omega
      simp only [h0, decide_false, Bool.false_bne, if_true]
      conv_rhs => rw [this]

/-- C155, the part that holds of `/` with signed numbers: a divisor that is not negative. -/
theorem div_big_partial {T : NType} (hs : T.signed = true) {a : Int} (hf : Fits T.signed T.bits a) (hm : a ≠ T.min)
    {b : Big} (hb : 0 < Bigint.Spec.value b) : divBig T a b = some (a.tdiv (Bigint.Spec.value b)) := by
  have hn : b.neg = false ∧ b.num ≠ 0 := by
    unfold Bigint.Spec.value at hb
    split at hb
    · omega
    · rename_i h
      exact ⟨by simpa using h, by omega⟩
  rw [div_big_characterised hs hf hm hn.2, if_neg (by rw [hn.1]; decide)]

example : Fits int32.signed int32.bits (-7) ∧ (-7 : Int) ≠ int32.min ∧ 0 < Bigint.Spec.value ⟨false, 2⟩ ∧
    divBig int32 (-7) ⟨false, 2⟩ = some (-3) := ⟨by decide, by decide, by decide, by decide +kernel⟩

/-- C155 is false of the program: 7 divided by −2 gives 3, −7 divided by −2 gives −3; the least `int` cannot be divided by
any number; the least `signed char` divided by 1 gives 128. -/
theorem div_big_refuted : divBig int32 7 ⟨true, 2⟩ = some 3 ∧ divBig int32 (-7) ⟨true, 2⟩ = some (-3) ∧
    (∀ b, divBig int32 int32.min b = none) ∧ divBig int8 int8.min ⟨false, 1⟩ = some 128 := by
  refine ⟨by decide +kernel, by decide +kernel, ?_, by decide +kernel⟩
  intro b
  unfold divBig
  rw [absN_min int32 rfl, if_pos (by decide)]
  rfl

/-- C155: the remainder by a signed big integer, for signed numbers. -/
theorem mod_big_partial {T : NType} (hs : T.signed = true) {a : Int} (hf : Fits T.signed T.bits a) (hm : a ≠ T.min)
    {b : Big} (hb : b.num ≠ 0) : modBig T a b = some (a.tmod (Bigint.Spec.value b)) := by
  unfold modBig
  rw [absN_eq T a hf (fun _ => hm), Option.bind_some, neg_iff T hs]
  have hv := (Bigint.mod_correct ⟨false, a.natAbs⟩ b hb).1
  have e : Bigint.Spec.value ⟨false, a.natAbs⟩ = (a.natAbs : Int) := rfl
  have hle : (Bigint.Spec.value (Bigint.mod ⟨false, a.natAbs⟩ b)).natAbs ≤ a.natAbs := by
    rw [hv, e, Int.natAbs_tmod]
    exact Nat.mod_le _ _
  obtain ⟨f1, f2⟩ := fits_of_natAbs_le hf (fun _ => hm) hs hle
  rw [bigTo_signed hs _ f1, copyNeg_signed hs f2, hv, e, Option.some.injEq]
  by_cases h0 : a < 0
  · have : a = -(a.natAbs : Int) := by omega
    simp only [h0, decide_true, if_true]
    conv_rhs => rw [this]
    rw [Int.neg_tmod]
  · have : a = (a.natAbs : Int) := by omega
    simp only [h0, decide_false, Bool.false_eq_true, if_false]
    conv_rhs => rw [this]

/-- C155, the part that holds of division by an unsigned big integer. -/
theorem div_ubig_partial {T : NType} {a : Int} (hf : Fits T.signed T.bits a) (hm : T.signed = true → a ≠ T.min)
    {b : Nat} (hb : b ≠ 0) : divUbig T a b = some (a.tdiv b) ∧ modUbig T a b = some (a.tmod b) := by
  unfold divUbig modUbig
  rw [absN_eq T a hf hm, Option.bind_some, Option.bind_some]
  have ud : Bigint.udiv a.natAbs b = a.natAbs / b := by unfold Bigint.udiv; rw [if_neg hb]
  have um : Bigint.umod a.natAbs b = a.natAbs % b := by unfold Bigint.umod; rw [if_neg hb]
  rw [ud, um, tdiv_abs, tmod_abs, Int.natAbs_natCast]
  have hb' : ¬ ((b : Int) < 0) := by omega
  simp only [hb', decide_false]
  cases hs : T.signed
  · have h0 : ¬ a < 0 := by
      unfold Fits at hf
      rw [hs, if_neg (by decide)] at hf
      omega
    have hn : isNeg T a = false := by unfold isNeg; rw [hs]; rfl
    have hlt : ∀ n : Nat, n ≤ a.natAbs → castTo T n = n := by
      intro n hle
      apply castTo_fits
      unfold Fits at hf ⊢
      rw [hs, if_neg (by decide)] at hf ⊢
      omega
    rw [hn, hlt _ (Nat.div_le_self _ _), hlt _ (Nat.mod_le _ _)]
    simp [copyNeg, h0]
  · rw [neg_iff T hs]
    have key : ∀ n : Nat, n ≤ a.natAbs → Fits T.signed T.bits n ∧ (n : Int) ≠ T.min := fun n hle =>
      fits_of_natAbs_le hf hm hs (by rw [Int.natAbs_natCast]; exact hle)
    obtain ⟨d1, d2⟩ := key _ (Nat.div_le_self a.natAbs b)
    obtain ⟨m1, m2⟩ := key _ (Nat.mod_le a.natAbs b)
    rw [castTo_fits T d1, castTo_fits T m1, copyNeg_signed hs d2, copyNeg_signed hs m2]
    by_cases h0 : a < 0 <;> simp [h0]

example : Fits int8.signed int8.bits (-7) ∧ divUbig int8 (-7) 2 = some (-3) ∧ modUbig int8 (-7) 2 = some (-1) :=
  ⟨by decide, by decide +kernel, by decide +kernel⟩

/-- C155 is false of the program for the least number of a type. -/
theorem div_ubig_refuted : (∀ b, divUbig int32 int32.min b = none ∧ modUbig int32 int32.min b = none) ∧
    divUbig int8 int8.min 1 = some 128 := by
  refine ⟨fun b => ?_, by decide +kernel⟩
  unfold divUbig modUbig
  rw [absN_min int32 rfl, if_pos (by decide)]
  exact ⟨rfl, rfl⟩

/-- C155: an unsigned native integer divided by a signed big one gives what the language makes of the quotient in the type in
which it computes: the type itself, or `int` if that is wider. -/
theorem div_big_unsigned {T : NType} (hs : T.signed = false) {a : Int} (hf : Fits T.signed T.bits a) {b : Big}
    (hb : b.num ≠ 0) : ∃ r, divBig T a b = some r ∧
      (if T.bits < 32 then r = a.tdiv (Bigint.Spec.value b) else Cast false T.bits (a.tdiv (Bigint.Spec.value b)) r) ∧
      modBig T a b = some (a.tmod (Bigint.Spec.value b)) := by
  have h0 : 0 ≤ a ∧ a < 2 ^ T.bits := by
    unfold Fits at hf
    rw [hs, if_neg (by decide)] at hf
    exact hf
  have hn : isNeg T a = false := by unfold isNeg; rw [hs]; rfl
  have e' : ((2 ^ T.bits : Nat) : Int) = 2 ^ T.bits := by push_cast; rfl
  have hto : ∀ c : Big, c.num ≤ a.natAbs → bigTo T c = c.num := by
    intro c hc
    unfold bigTo
    rw [hs, if_neg (by decide), Nat.mod_eq_of_lt (by omega)]
  have hdn : (Bigint.div ⟨false, a.natAbs⟩ b).num = a.natAbs / b.num := by
    show Bigint.udiv _ _ = _
    unfold Bigint.udiv
    rw [if_neg hb]
  have hmn : (Bigint.mod ⟨false, a.natAbs⟩ b).num = a.natAbs % b.num := by
    show Bigint.umod _ _ = _
    unfold Bigint.umod
    rw [if_neg hb]
  have hmod : modBig T a b = some (a.tmod (Bigint.Spec.value b)) := by
    unfold modBig
    rw [absN_eq T a hf (by rw [hs]; simp), Option.bind_some, hn, hto _ (by rw [hmn]; exact Nat.mod_le _ _), hmn, tmod_abs,
      value_natAbs, if_neg (by omega)]
    rfl
  have hdiv : divBig T a b = copyNeg T ((a.natAbs / b.num : Nat) : Int) b.neg := by
    unfold divBig
    rw [absN_eq T a hf (by rw [hs]; simp), Option.bind_some, hn, hto _ (by rw [hdn]; exact Nat.div_le_self _ _), hdn,
      Bool.false_bne]
  have hq : a.tdiv (Bigint.Spec.value b) =
      if b.neg = true then -((a.natAbs / b.num : Nat) : Int) else ((a.natAbs / b.num : Nat) : Int) := by
    rw [tdiv_abs, value_natAbs]
    have : ¬ a < 0 := by omega
    simp only [this, decide_false, Bool.false_bne]
    unfold Bigint.Spec.value
    cases hbn : b.neg
    · rw [if_neg (by simp), if_neg (by decide)]
    · rw [if_pos rfl, if_pos (by simp; omega), if_pos rfl]
  have hle : a.natAbs / b.num ≤ a.natAbs := Nat.div_le_self _ _
  cases hbn : b.neg
  · rw [hbn, if_neg (by decide)] at hq
    refine ⟨_, by rw [hdiv, hbn]; rfl, ?_, hmod⟩
    rw [hq]
    split
    · rfl
    · refine ⟨?_, Int.ModEq.refl _⟩
      unfold Fits
      rw [if_neg (by decide)]
      omega
  · rw [hbn, if_pos rfl] at hq
    by_cases hw : T.bits < 32
    · refine ⟨_, by rw [hdiv, hbn]; unfold copyNeg; rw [if_pos rfl, if_pos hw], ?_, hmod⟩
      rw [if_pos hw, hq, zero_sub]
    · refine ⟨_, by rw [hdiv, hbn]; unfold copyNeg; rw [if_pos rfl, if_neg hw, hs, if_neg (by decide)], ?_, hmod⟩
      rw [if_neg hw, hq, zero_sub]
      refine ⟨?_, Int.mod_modEq _ _⟩
      unfold Fits
      rw [if_neg (by decide)]
      exact ⟨Int.emod_nonneg _ (by positivity), Int.emod_lt_of_pos _ (by positivity)⟩

example : divBig uint32 7 ⟨true, 2⟩ = some 4294967293 ∧ divBig uint8 7 ⟨true, 2⟩ = some (-3) := by
  refine ⟨by decide +kernel, by decide +kernel⟩

/-! ### C156: powers -/

/-- C156: `pow` of an unsigned fraction with any integer. -/
theorem ufrac_pow_correct (a : UFrac) (e : Int) : uvalue (ufracPowInt a e) = uvalue a ^ e := by
  unfold ufracPowInt
  by_cases h : e < 0
  · simp only [h, if_true]
    rw [ufracPow_value, zpow_abs_neg _ h]
    congr 1
    unfold uvalue
    rw [inv_div]
  · simp only [h, if_false]
    rw [ufracPow_value, zpow_abs_nonneg _ h]

/-- C156: no finite fraction but zero has an infinite power; zero to a negative power is infinite. -/
theorem ufrac_pow_finite (a : UFrac) (ha : a.den ≠ 0) (e : Int) :
    (ufracPowInt a e).den = 0 ↔ a.num = 0 ∧ e < 0 := by
  unfold ufracPowInt
  by_cases h : e < 0
  · simp only [h, if_true, and_true]
    constructor
    · intro hz
      by_contra hc
      exact ufracPow_finite ⟨a.den, a.num⟩ e.natAbs hc hz
    · intro hz
      rw [hz]
      have hp : ∀ (b : Nat) (c r : UFrac), c.den = 0 → b ≠ 0 ∨ r.den = 0 → (ufracPowLoop c b r).den = 0 := by
        intro b
        induction b using Nat.strongRecOn with
        | ind b ih =>
          intro c r hc hr
          unfold ufracPowLoop
          by_cases hb : b = 0
          · rw [dif_pos hb]
            rcases hr with hr | hr
            · exact absurd hb hr
            · exact hr
          · rw [dif_neg hb]
            apply ih (b / 2) (by omega)
            · show c.den * c.den = 0
              rw [hc]
            · by_cases h1 : b % 2 = 1
              · right
                rw [if_pos h1]
                show r.den * c.den = 0
                rw [hc, Nat.mul_zero]
              · left
                omega
      exact hp _ _ _ rfl (Or.inl (by omega))
  · simp only [h, if_false, and_false, iff_false]
    exact ufracPow_finite a e.natAbs ha

/-- C156: `pow` of an unsigned big integer with a signed exponent. -/
theorem nat_pow_correct (a : Nat) (e : Int) : uvalue (natPowInt a e) = (a : ℚ) ^ e := by
  unfold natPowInt
  by_cases h : e < 0
  · rw [if_pos h, zpow_abs_neg _ h, Arith.pow_correct]
    unfold uvalue UFrac.ofNat UFrac.divNat
    simp
  · rw [if_neg h, zpow_abs_nonneg _ h, Arith.pow_correct]
    unfold uvalue UFrac.ofNat
    simp

/-- C156: `pow` of a signed fraction with an unsigned exponent. -/
theorem frac_pow_correct (a : Frac) (n : Nat) :
    Bigfloat.Spec.value (fracPow a n) = Bigfloat.Spec.value a ^ n := by
  unfold fracPow Bigfloat.Spec.value
  rw [ufracPow_value]
  exact neg_pow_value _ _ _

/-- C156, what `pow` of a signed fraction with a signed exponent really gives: the sign of the exponent is dropped. -/
theorem frac_pow_int_characterised (a : Frac) (e : Int) :
    Bigfloat.Spec.value (fracPowInt a e) = Bigfloat.Spec.value a ^ e.natAbs := frac_pow_correct a e.natAbs

/-- C156, the part of it that holds. -/
theorem frac_pow_int_partial (a : Frac) (e : Int) (he : 0 ≤ e) :
    Bigfloat.Spec.value (fracPowInt a e) = Bigfloat.Spec.value a ^ e := by
  rw [frac_pow_int_characterised, zpow_abs_nonneg _ (by omega)]

example : fracPowInt ⟨true, ⟨2, 3⟩⟩ 3 = ⟨true, ⟨8, 27⟩⟩ := by decide +kernel

/-- C156 is false of the program: 2 to the power −1 is 2. -/
theorem frac_pow_int_refuted : ¬ ∀ (a : Frac) (e : Int), a.num.den ≠ 0 →
    Bigfloat.Spec.value (fracPowInt a e) = Bigfloat.Spec.value a ^ e := by
  intro h
  have := h ⟨false, ⟨2, 1⟩⟩ (-1) (by decide)
  rw [frac_pow_int_characterised] at this
  simp only [Bigfloat.Spec.value, uvalue] at this
  norm_num at this

/-- C156: `pow` of a signed big integer with a signed exponent. -/
theorem int_pow_correct (a : Int) (e : Int) : Bigfloat.Spec.value (intPowInt a e) = (a : ℚ) ^ e := by
  unfold intPowInt
  rw [Arith.pow_signed_correct]
  have hsgn : ∀ p : Int, (if (decide (p < 0)) = true then -((p.natAbs : Nat) : ℚ) else ((p.natAbs : Nat) : ℚ)) = (p : ℚ) := by
    intro p
    by_cases h : p < 0
    · rw [if_pos (by simpa using h)]
      have : ((-(p.natAbs : Int) : Int) : ℚ) = (p : ℚ) := by congr 1; omega
      rw [← this, Int.cast_neg, Int.cast_natCast]
    · rw [if_neg (by simpa using h)]
      have : (((p.natAbs : Int) : Int) : ℚ) = (p : ℚ) := by congr 1; omega
      rw [← this, Int.cast_natCast]
  by_cases h : e < 0
  · simp only [h, if_true, Bool.false_bne]
    rw [zpow_abs_neg _ h, inv_pow]
    have e1 := hsgn (a ^ e.natAbs)
    rw [Int.cast_pow] at e1
    rw [← e1]
    unfold Bigfloat.Spec.value uvalue UFrac.ofNat UFrac.divNat
    simp only [Nat.one_mul, Nat.cast_one]
    split
    · rw [one_div, inv_neg]
    · rw [one_div]
  · simp only [h, if_false]
    rw [zpow_abs_nonneg _ h]
    have e1 := hsgn (a ^ e.natAbs)
    rw [Int.cast_pow] at e1
    rw [← e1]
    unfold Bigfloat.Spec.value uvalue Frac.ofInt UFrac.ofNat
    simp only [Nat.cast_one, div_one]

example : intPowInt (-2) (-3) = ⟨true, ⟨1, 8⟩⟩ ∧ natPowInt 2 (-3) = ⟨1, 8⟩ := by decide +kernel

/-! ### C157: native integers alone -/

/-- C157: `divmod` gives quotient and remainder, unless the divisor is zero or the quotient is not a number of the type. -/
theorem divmod_correct {T : NType} (a b : Int) (hb : b ≠ 0)
    (ho : ¬ (promSigned T = true ∧ a = -2 ^ (promBits T - 1) ∧ b = -1)) :
    ∃ q r, divmod T a b = some (q, r) ∧ a = b * q + r ∧ r.natAbs < b.natAbs ∧ (0 ≤ a → 0 ≤ r) ∧ (a ≤ 0 → r ≤ 0) := by
  refine ⟨_, _, by unfold divmod; rw [if_neg hb, if_neg ho], (Int.mul_tdiv_add_tmod a b).symm, ?_, ?_, ?_⟩
  · rw [Int.natAbs_tmod]
    exact Nat.mod_lt _ (by omega)
  · intro h
    rw [tmod_abs, if_neg (by omega)]
    omega
  · intro h
    rw [tmod_abs]
    split
    · omega
    · have : a = 0 := by omega
      rw [this]
      simp

example : divmod int32 (-7) 2 = some (-3, -1) := by decide +kernel

/-- C157, what `ceil_div` really gives: it is right exactly when the signs are the same, or the division leaves no remainder
and the type is wider than `int`. -/
theorem ceil_div_characterised {T : NType} {a b : Int} (ha : Fits T.signed T.bits a) (hbf : Fits T.signed T.bits b)
    (hb : b ≠ 0) (ho : ¬ (promSigned T = true ∧ a = -2 ^ (promBits T - 1) ∧ b = -1)) :
    ∃ r, ceilDiv T a b = some r ∧ (IsCeil a b r ↔ SameSign a b ∨ (b ∣ a ∧ 32 < promBits T)) := by
  have hdvd : b ∣ a ↔ a.tmod b = 0 := ⟨Int.tmod_eq_zero_of_dvd, Int.dvd_of_tmod_eq_zero⟩
  obtain ⟨c1, c2⟩ := ceil_exact a b hb
  obtain ⟨s1, s2, s3, s4, s5, s6⟩ := ceil_sum_bound a b hb
  unfold ceilDiv divmod
  rw [if_neg hb, if_neg ho, Option.bind_some]
  simp only
  set q := a.tdiv b with hqd
  set m := a.tmod b with hmd
  set s := q + (if m ≠ 0 then 1 else 0) with hsd
  have hs1 : m = 0 → s = q := by intro h; rw [hsd, if_neg (by simpa using h)]; omega
  have hs2 : m ≠ 0 → s = q + 1 := by intro h; rw [hsd, if_pos h]
  -- rightness of a candidate
  have right : ∀ r : Int, (IsCeil a b r ↔ (SameSign a b ∧ r = s) ∨ (¬ SameSign a b ∧ r = q)) := by
    intro r
    by_cases hss : SameSign a b
    · constructor
      · intro h; exact Or.inl ⟨hss, ceil_unique h (c1 hss)⟩
      · rintro (⟨-, h⟩ | ⟨h, -⟩)
        · rw [h]; exact c1 hss
        · exact absurd hss h
    · constructor
      · intro h; exact Or.inr ⟨hss, ceil_unique h (c2 hss)⟩
      · rintro (⟨h, -⟩ | ⟨-, h⟩)
        · exact absurd h hss
        · rw [h]; exact c2 hss
  have hq0 : ¬ SameSign a b → m = 0 → q < 0 := by
    intro h hm
    have h1 := s6 h
    rcases Int.lt_or_eq_of_le h1 with h2 | h2
    · exact h2
    · exfalso
      have := Int.mul_tdiv_add_tmod a b
      rw [← hqd, ← hmd, h2, hm] at this
      apply h
      unfold SameSign
      rcases Int.lt_or_gt_of_ne hb with h3 | h3
      · right; omega
      · left; omega
  rcases Nat.lt_or_ge T.bits 64 with hw | hw
  · -- computed as unsigned
    have hP : promBits T = 32 := by
      unfold promBits
      rcases level_bits T with h | h | h
      · rw [if_pos h]
      · rw [if_neg (by omega)]; exact h
      · omega
    have ha' : (a.natAbs : Int) < 2 ^ 32 ∧ ((a < 0 ∨ b < 0) → (a.natAbs : Int) ≤ 2 ^ 31) := by
      have hbits : T.bits ≤ 32 := by rcases level_bits T with h | h | h <;> omega
      have p1 : (2 : Int) ^ T.bits ≤ 2 ^ 32 := by exact_mod_cast Nat.pow_le_pow_right (n := 2) (by decide) hbits
      have p2 : (2 : Int) ^ (T.bits - 1) ≤ 2 ^ 31 := by
        exact_mod_cast Nat.pow_le_pow_right (n := 2) (by decide) (by omega : T.bits - 1 ≤ 31)
      unfold Fits at ha hbf
      cases hsg : T.signed
      · rw [hsg, if_neg (by decide)] at ha hbf; omega
      · rw [hsg, if_pos rfl] at ha hbf; omega
    rw [if_pos hP]
    refine ⟨_, rfl, ?_⟩
    rw [right, hdvd, hP]
    by_cases hss : SameSign a b
    · have h0 := s5 hss
      have hs0 : 0 ≤ s ∧ s < 2 ^ 32 := by
        refine ⟨?_, by omega⟩
        by_cases hm : m = 0
        · rw [hs1 hm]; exact h0
        · rw [hs2 hm]; omega
      rw [Int.emod_eq_of_lt hs0.1 hs0.2]
      simp [hss]
    · have hlt := s6 hss
      simp only [hss, false_and, not_false_eq_true, true_and, false_or, lt_irrefl, and_false, iff_false]
      intro hc
      have hnn := Int.emod_nonneg s (b := 2 ^ 32) (by decide)
      by_cases hm : m = 0
      · have := hq0 hss hm
        omega
      · have h2 := hs2 hm
        have : q = 0 := by omega
        rw [h2, this] at hc
        revert hc
        decide
  · have hnl : ¬ T.bits < 32 := by omega
    have hP : promBits T = T.bits := by unfold promBits; rw [if_neg hnl]
    have hPs : promSigned T = T.signed := by unfold promSigned; rw [if_neg hnl]
    rw [hP, hPs] at ho
    rw [hP, if_neg (by omega)]
    have hh := Convert.pow_half (b := T.bits) (by omega)
    have hbig : (4 : Int) ≤ 2 ^ (T.bits - 1) := by
      have : 2 ^ 2 ≤ 2 ^ (T.bits - 1) := Nat.pow_le_pow_right (by decide) (by omega)
      exact_mod_cast this
    have goal : ∀ r, r = s → (IsCeil a b r ↔ SameSign a b ∨ (b ∣ a ∧ 32 < T.bits)) := by
      intro r hr
      rw [right, hdvd, hr]
      have : 32 < T.bits := by omega
      by_cases hss : SameSign a b
      · simp [hss]
      · simp only [hss, not_false_eq_true, true_and, false_or, this, and_true]
        by_cases hm : m = 0
        · simp [hm, hs1 hm]
        · have := hs2 hm
          constructor
          · intro h; omega
          · intro h; exact absurd h hm
    cases hsg : T.signed
    · rw [if_neg (by decide)]
      unfold Fits at ha hbf
      rw [hsg, if_neg (by decide)] at ha hbf
      have hss : SameSign a b := Or.inl ⟨ha.1, by omega⟩
      have h0 := s5 hss
      refine ⟨_, rfl, goal _ (Int.emod_eq_of_lt ?_ ?_)⟩
      · by_cases hm : m = 0
        · rw [hs1 hm]; exact h0
        · rw [hs2 hm]; omega
      · omega
    · rw [if_pos rfl]
      unfold Fits at ha hbf
      rw [hsg, if_pos rfl] at ha hbf
      have hrange : -2 ^ (T.bits - 1) ≤ s ∧ s < 2 ^ (T.bits - 1) := by
        by_cases hm : m = 0
        · rw [hs1 hm]
          refine ⟨by omega, ?_⟩
          by_contra hc
          have hqa : q = a.natAbs := by rw [hs1 hm] at s1; omega
          have ha0 : a ≠ 0 := by rintro rfl; simp at hqa; omega
          have hamin : a = -2 ^ (T.bits - 1) := by omega
          rcases s4 hqa ha0 with h1 | h1
          · have hss : ¬ SameSign a b := by unfold SameSign; omega
            have := s6 hss
            omega
          · exact ho ⟨hsg, hamin, h1⟩
        · have h3 := s3 hm
          rw [hs2 hm]
          omega
      rw [if_pos hrange]
      exact ⟨_, rfl, goal _ rfl⟩

/-- C157, the part of `ceil_div` that holds: numbers that are not negative, and a divisor that is positive. -/
theorem ceil_div_partial {T : NType} {a b : Int} (ha : Fits T.signed T.bits a) (hbf : Fits T.signed T.bits b)
    (h0 : 0 ≤ a) (hb : 0 < b) : ∃ r, ceilDiv T a b = some r ∧ IsCeil a b r := by
  have hp : (0 : Int) < 2 ^ (promBits T - 1) := by positivity
  obtain ⟨r, h1, h2⟩ := ceil_div_characterised ha hbf (by omega) (by omega)
  exact ⟨r, h1, h2.2 (Or.inl (Or.inl ⟨h0, hb⟩))⟩

example : Fits int32.signed int32.bits 7 ∧ ceilDiv int32 7 2 = some 4 := ⟨by decide, by decide +kernel⟩

/-- C157 is false of the program: −3 divided by 2 and rounded up gives 0, −4 divided by 2 gives 4294967294 for `int`. -/
theorem ceil_div_refuted : ceilDiv int64 (-3) 2 = some 0 ∧ ceilDiv int32 (-4) 2 = some 4294967294 ∧
    ¬ IsCeil (-3) 2 0 ∧ ¬ IsCeil (-4) 2 4294967294 := by
  refine ⟨by decide +kernel, by decide +kernel, ?_, ?_⟩
  · rw [isCeil_pos (by decide)]; decide
  · rw [isCeil_pos (by decide)]; decide

/-- C157, what `sub` really gives.  With signs it is the difference if the type has it, and undefined otherwise; without signs
it is right exactly when both numbers are in the same half of the type; types narrower than `int` are right always. -/
theorem sub_characterised {T : NType} {a b : Int} (ha : Fits T.signed T.bits a) (hb : Fits T.signed T.bits b) :
    sub T a b = some (a - b) ↔ T.bits < 32 ∨ (if T.signed then Fits true T.bits (a - b)
      else (a < 2 ^ (T.bits - 1) ↔ b < 2 ^ (T.bits - 1))) := by
  have h8 := T.bits_pos
  have hh := Convert.pow_half (b := T.bits) (by omega)
  have hp : (0 : Int) < 2 ^ (T.bits - 1) := by positivity
  unfold sub
  by_cases hw : T.bits < 32
  · simp [hw]
  · rw [if_neg hw]
    simp only [hw, false_or]
    have hcast : ∀ x, Fits T.signed T.bits x → castTo ⟨true, T.level⟩ x =
        if x < 2 ^ (T.bits - 1) then x else x - 2 ^ T.bits := by
      intro x hx
      apply Convert.castTo_eq
      refine ⟨?_, ?_⟩
      · show Fits true T.bits _
        unfold Fits at hx ⊢
        rw [if_pos rfl]
        cases hs : T.signed
        · rw [hs, if_neg (by decide)] at hx
          split <;> omega
        · rw [hs, if_pos rfl] at hx
          split <;> omega
      · show _ ≡ x [ZMOD 2 ^ T.bits]
        split
        · exact Int.ModEq.refl _
        · unfold Int.ModEq
          rw [Int.sub_emod, Int.emod_self, sub_zero, Int.emod_emod_of_dvd _ (dvd_refl _)]
    rw [hcast a ha, hcast b hb]
    unfold Fits at ha hb ⊢
    cases hs : T.signed
    · rw [hs, if_neg (by decide)] at ha hb
      simp only [Bool.false_eq_true, if_false]
      by_cases c1 : a < 2 ^ (T.bits - 1) <;> by_cases c2 : b < 2 ^ (T.bits - 1)
      · simp only [c1, c2, if_true, iff_true]
        rw [if_pos ⟨by omega, by omega⟩]
      · simp only [c1, c2, if_true, if_false, iff_false, not_true_eq_false]
        split
        · intro h; rw [Option.some.injEq] at h; omega
        · intro h; cases h
      · simp only [c1, c2, if_true, if_false, false_iff, not_true_eq_false, iff_false]
        split
        · intro h; rw [Option.some.injEq] at h; omega
        · intro h; cases h
      · simp only [c1, c2, if_false, iff_true]
        rw [if_pos ⟨by omega, by omega⟩]
        congr 1
        omega
    · rw [hs, if_pos rfl] at ha hb
      simp only [if_true]
      rw [if_pos ha.2, if_pos hb.2]
      constructor
      · intro h
        by_contra hc
        rw [if_neg hc] at h
        cases h
      · intro h
        rw [if_pos h]

/-- C157, the part of `sub` that holds for numbers without sign: those of the lower half. -/
theorem sub_partial {T : NType} (hs : T.signed = false) {a b : Int} (ha : 0 ≤ a ∧ a < 2 ^ (T.bits - 1))
    (hb : 0 ≤ b ∧ b < 2 ^ (T.bits - 1)) : sub T a b = some (a - b) := by
  have h8 := T.bits_pos
  have hh := Convert.pow_half (b := T.bits) (by omega)
  have fits : ∀ x : Int, 0 ≤ x ∧ x < 2 ^ (T.bits - 1) → Fits T.signed T.bits x := by
    intro x hx
    unfold Fits
    rw [hs, if_neg (by decide)]
    omega
  rw [sub_characterised (fits a ha) (fits b hb), hs, if_neg (by decide)]
  exact Or.inr ⟨fun _ => hb.2, fun _ => ha.2⟩

example : sub uint32 5 7 = some (-2) := by decide +kernel

/-- C157 is false of the program: 3000000000u minus 5u gives −1294967301, and 2147483648u minus 5u is undefined. -/
theorem sub_refuted : sub uint32 3000000000 5 = some (-1294967301) ∧ sub uint32 2147483648 5 = none ∧
    sub uint32 4294967295 5 = some (-6) := by
  refine ⟨by decide +kernel, by decide +kernel, by decide +kernel⟩

/-- C157: `is_odd` tells odd numbers, also negative ones. -/
theorem is_odd_correct (T : NType) (a : Int) : isOdd T a = true ↔ ∃ k, a = 2 * k + 1 := by
  have h8 := T.bits_pos
  have hh := Convert.pow_half (b := T.bits) (by omega)
  have h1 := Int.emod_nonneg a (b := 2 ^ T.bits) (by positivity)
  have h2 : a % 2 ^ T.bits % 2 = a % 2 := by
    apply Int.emod_emod_of_dvd
    exact ⟨_, hh⟩
  unfold isOdd
  rw [Nat.and_one_is_mod, bne_iff_ne]
  constructor
  · intro h
    exact ⟨a / 2, by omega⟩
  · rintro ⟨k, hk⟩
    omega

example : isOdd int32 (-7) = true ∧ isOdd int32 (-8) = false := by decide +kernel

end ELC.Native
