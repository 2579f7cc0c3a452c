import Verif.Float.Convert
import Verif.Bigfloat.Props
import Mathlib.Algebra.Order.Field.Basic
import Mathlib.Data.Rat.Floor
/-! Rounding to nearest, `to_divide` and the construction of big numbers from native ones. -/
namespace ELC.Float

open Spec
open ELC.Bigfloat (UFrac)

variable {I : Info} {f : Format}

theorem infinity_eq (h : Agrees I f) : infinity I = top f := by
  unfold infinity top
  rw [h.emax, h.bit, Int.toNat_natCast]
  congr 1

theorem one_eq (h : Agrees I f) : one I = 2 ^ Kof f := by
  unfold one Kof
  rw [h.emin, h.bit]
  congr 1
  have := h.biasPos
  omega

theorem one_pos (h : Agrees I f) : 0 < one I := by rw [one_eq h]; exact Nat.two_pow_pos _

/-- The two candidates, and which one is taken. -/
theorem nearest_cases (h : Agrees I f) {x y : Nat} (hy : 0 < y) (hr : nearest I x y < infinity I) :
    ∃ r, y * units f.p r ≤ x ∧ x < y * units f.p (r + 1) ∧
      ((nearest I x y = r ∧ 2 * x ≤ y * (units f.p r + units f.p (r + 1)) ∧
          (2 * x = y * (units f.p r + units f.p (r + 1)) → r % 2 = 0)) ∨
        (nearest I x y = r + 1 ∧ y * (units f.p r + units f.p (r + 1)) ≤ 2 * x ∧
          (2 * x = y * (units f.p r + units f.p (r + 1)) → (r + 1) % 2 = 0))) := by
  obtain ⟨h1, h2⟩ := trunc_spec f.p (x / y)
  refine ⟨trunc f.p (x / y), ?_, ?_, ?_⟩
  · rw [Nat.mul_comm]; exact (Nat.le_div_iff_mul_le hy).1 h1
  · rw [Nat.mul_comm]; exact (Nat.div_lt_iff_lt_mul hy).1 h2
  · unfold nearest at hr ⊢
    dsimp only at hr ⊢
    rw [h.bit] at hr ⊢
    generalize trunc f.p (x / y) = r at *
    generalize y * (units f.p r + units f.p (r + 1)) = mid at *
    split at hr
    · rename_i hc
      rw [if_pos hc, Nat.min_eq_left (by omega)]
      exact Or.inl ⟨rfl, by omega, by omega⟩
    · rename_i hc
      rw [if_neg hc]
      split at hr
      · rename_i hc'
        rw [if_pos hc', Nat.min_eq_left (by omega)]
        exact Or.inr ⟨rfl, by omega, by omega⟩
      · rename_i hc'
        rw [if_neg hc']
        split at hr
        · rename_i hp
          rw [if_pos hp, Nat.min_eq_left (by omega)]
          exact Or.inl ⟨rfl, by omega, fun _ => hp⟩
        · rename_i hp
          rw [if_neg hp, Nat.min_eq_left (by omega)]
          exact Or.inr ⟨rfl, by omega, fun _ => by omega⟩

/-- `nearest` rounds to nearest, ties to even. -/
theorem nearest_rounded (h : Agrees I f) {x y : Nat} (hy : 0 < y) (hr : nearest I x y < infinity I) :
    Rounded f ((x : ℚ) / y * 2 ^ (-(Kof f : ℤ))) (nearest I x y) := by
  obtain ⟨r, h1, h2, h3⟩ := nearest_cases h hy hr
  have hy' : (0 : ℚ) < y := by exact_mod_cast hy
  have hu := two_zpow_pos (-(Kof f : ℤ))
  have hpl : Plain f (nearest I x y) := (plain_iff h _).2 (by rw [← infinity_eq h]; exact hr)
  have dist : ∀ d', Plain f d' → |(x : ℚ) / y * 2 ^ (-(Kof f : ℤ)) - magnitude f d'| =
      |(x : ℚ) - y * units f.p d'| * (2 ^ (-(Kof f : ℤ)) / y) := by
    intro d' hd'
    rw [magnitude_plain h hd'.1, ← abs_of_pos (div_pos hu hy'), ← abs_mul]
    congr 1
    field_simp
  have hs := div_pos hu hy'
  have q1 : (y : ℚ) * units f.p r ≤ x := by exact_mod_cast h1
  have q2 : (x : ℚ) < y * units f.p (r + 1) := by exact_mod_cast h2
  have low : ∀ d', d' ≤ r → (y : ℚ) * units f.p d' ≤ y * units f.p r := by
    intro d' hd'
    exact mul_le_mul_of_nonneg_left (by exact_mod_cast units_le hd') hy'.le
  have high : ∀ d', r + 1 ≤ d' → (y : ℚ) * units f.p (r + 1) ≤ y * units f.p d' := by
    intro d' hd'
    exact mul_le_mul_of_nonneg_left (by exact_mod_cast units_le hd') hy'.le
  have lowS : ∀ d', d' < r → (y : ℚ) * units f.p d' < y * units f.p r := by
    intro d' hd'
    exact mul_lt_mul_of_pos_left (by exact_mod_cast units_lt hd') hy'
  have highS : ∀ d', r + 1 < d' → (y : ℚ) * units f.p (r + 1) < y * units f.p d' := by
    intro d' hd'
    exact mul_lt_mul_of_pos_left (by exact_mod_cast units_lt hd') hy'
  refine ⟨⟨hpl, fun d' hd' => ?_⟩, fun d' hd' hne heq => ?_⟩
  · rw [dist _ hpl, dist d' hd']
    apply mul_le_mul_of_nonneg_right _ hs.le
    rcases h3 with ⟨h3, h4, _⟩ | ⟨h3, h4, _⟩
    · have q4 : (2 : ℚ) * x ≤ y * (units f.p r + units f.p (r + 1)) := by exact_mod_cast h4
      rw [h3, abs_of_nonneg (by linarith)]
      rcases Nat.lt_or_ge r d' with hd | hd
      · have := high d' hd
        rw [abs_of_nonpos (by linarith)]; linarith
      · have := low d' hd
        rw [abs_of_nonneg (by linarith)]; linarith
    · have q4 : (y : ℚ) * (units f.p r + units f.p (r + 1)) ≤ 2 * x := by exact_mod_cast h4
      rw [h3, abs_of_nonpos (by linarith)]
      rcases Nat.lt_or_ge r d' with hd | hd
      · have := high d' hd
        rw [abs_of_nonpos (by linarith)]; linarith
      · have := low d' hd
        rw [abs_of_nonneg (by linarith)]; linarith
  · rw [dist _ hpl, dist d' hd'] at heq
    have heq := mul_right_cancel₀ hs.ne' heq
    rcases h3 with ⟨h3, h4, h5⟩ | ⟨h3, h4, h5⟩
    · rw [h3] at hne heq ⊢
      have q4 : (2 : ℚ) * x ≤ y * (units f.p r + units f.p (r + 1)) := by exact_mod_cast h4
      rw [abs_of_nonneg (show (0 : ℚ) ≤ x - y * units f.p r by linarith)] at heq
      apply h5
      rcases Nat.lt_or_ge r d' with hd | hd
      · have := high d' hd
        rw [abs_of_nonpos (by linarith)] at heq
        have : (2 : ℚ) * x = y * (units f.p r + units f.p (r + 1)) := by linarith
        exact_mod_cast this
      · have := lowS d' (by omega)
        rw [abs_of_nonneg (by linarith)] at heq
        linarith
    · rw [h3] at hne heq ⊢
      have q4 : (y : ℚ) * (units f.p r + units f.p (r + 1)) ≤ 2 * x := by exact_mod_cast h4
      rw [abs_of_nonpos (show (x : ℚ) - y * units f.p (r + 1) ≤ 0 by linarith)] at heq
      apply h5
      rcases Nat.lt_or_ge r d' with hd | hd
      · have := highS d' (by omega)
        rw [abs_of_nonpos (by linarith)] at heq
        linarith
      · have := low d' hd
        rw [abs_of_nonneg (by linarith)] at heq
        have : (2 : ℚ) * x = y * (units f.p r + units f.p (r + 1)) := by linarith
        exact_mod_cast this

theorem nearest_ge (h : Agrees I f) {x y c : Nat} (hy : 0 < y) (hc : y * units f.p c ≤ x) (hi : c ≤ infinity I) :
    c ≤ nearest I x y := by
  have h1 : c ≤ trunc f.p (x / y) := trunc_le_iff.1 ((Nat.le_div_iff_mul_le hy).2 (by rw [Nat.mul_comm]; exact hc))
  unfold nearest
  dsimp only
  rw [h.bit]
  apply Nat.le_min.2
  refine ⟨?_, hi⟩
  split
  · exact h1
  · split
    · omega
    · split <;> omega

theorem nearest_le (h : Agrees I f) {x y c : Nat} (hy : 0 < y) (hc : x ≤ y * units f.p c) : nearest I x y ≤ c := by
  by_cases hr : nearest I x y < infinity I
  · obtain ⟨r, h1, h2, h3⟩ := nearest_cases h hy hr
    have hrc : r ≤ c := (units_le_iff (p := f.p)).1 (Nat.le_of_mul_le_mul_left (Nat.le_trans h1 hc) hy)
    rcases h3 with ⟨h3, _⟩ | ⟨h3, h4, _⟩
    · rw [h3]; exact hrc
    · rw [h3]
      by_contra hcon
      have : c = r := by omega
      subst this
      have : x = y * units f.p c := Nat.le_antisymm hc h1
      have h5 := Nat.mul_lt_mul_of_pos_left (units_lt_succ f.p c) hy
      rw [Nat.mul_add] at h4
      omega
  · -- at infinity
    have hge : infinity I ≤ nearest I x y := Nat.le_of_not_lt hr
    have hle : nearest I x y ≤ infinity I := by unfold nearest; exact Nat.min_le_right _ _
    have hinf : nearest I x y = infinity I := by omega
    rw [hinf]
    by_contra hcon
    have hcl : c < infinity I := by omega
    -- then both candidates are below
    have ht : trunc f.p (x / y) ≤ c := by
      apply (units_le_iff (p := f.p)).1
      refine Nat.le_trans (trunc_spec f.p (x / y)).1 ?_
      exact Nat.div_le_of_le_mul hc
    have hlt : x < y * units f.p (trunc f.p (x / y) + 1) := by
      rw [Nat.mul_comm]; exact (Nat.div_lt_iff_lt_mul hy).1 (trunc_spec f.p (x / y)).2
    have hge' : y * units f.p (trunc f.p (x / y)) ≤ x := by
      rw [Nat.mul_comm]; exact (Nat.le_div_iff_mul_le hy).1 (trunc_spec f.p (x / y)).1
    unfold nearest at hinf
    dsimp only at hinf
    rw [h.bit] at hinf
    generalize trunc f.p (x / y) = r at *
    have h5 := Nat.mul_lt_mul_of_pos_left (units_lt_succ f.p r) hy
    by_cases hrc : r = c
    · subst hrc
      rw [Nat.mul_add, if_pos (by omega), Nat.min_eq_left (by omega)] at hinf
      omega
    · split at hinf
      · omega
      · split at hinf
        · have : r + 1 = infinity I ∨ infinity I < r + 1 := by omega
          omega
        · split at hinf <;> omega

/-- What is in the format is not changed by rounding. -/
theorem nearest_exact (h : Agrees I f) {y c : Nat} (hy : 0 < y) (hi : c ≤ infinity I) :
    nearest I (y * units f.p c) y = c :=
  Nat.le_antisymm (nearest_le h hy (Nat.le_refl _)) (nearest_ge h hy (Nat.le_refl _) hi)

theorem units_infinity (h : Agrees I f) : units f.p (infinity I) = 2 ^ (f.bias + 1) * one I := by
  rw [infinity_eq h, units_top h, one_eq h, ← pow_add]

theorem lt_infinity (h : Agrees I f) {a : Nat} (ha : units f.p a < 2 ^ (f.bias + 1) * one I) : a < infinity I := by
  by_contra hc
  have := units_le (p := f.p) (Nat.le_of_not_lt hc)
  rw [units_infinity h] at this
  omega

/-- Small integers are in the format. -/
theorem ofNat_eq (h : Agrees I f) {n : Nat} (hn : n < 2 ^ 23) : units f.p (ofNat I n) = n * one I ∧ ofNat I n < infinity I := by
  have hl := h.large
  have he : units f.p (trunc f.p (n * one I)) = n * one I := by
    rw [one_eq h]
    exact trunc_exact (Nat.lt_of_lt_of_le hn (Nat.pow_le_pow_right (by norm_num) (by omega)))
  have hlt : trunc f.p (n * one I) < infinity I := by
    apply lt_infinity h
    rw [he]
    apply Nat.mul_lt_mul_of_pos_right _ (one_pos h)
    exact Nat.lt_of_lt_of_le hn (Nat.pow_le_pow_right (by norm_num) (by omega))
  have : ofNat I n = trunc f.p (n * one I) := by
    unfold ofNat
    have := nearest_exact h (y := 1) Nat.one_pos hlt.le
    rwa [Nat.one_mul, he] at this
  rw [this]
  exact ⟨he, hlt⟩

/-- Integer and fraction part are exact. -/
theorem parts_eq (h : Agrees I f) (v : Nat) :
    units f.p (intPart I v) = units f.p v / one I * one I ∧ units f.p (fracPart I v) = units f.p v % one I := by
  obtain ⟨m, h1, h2⟩ := units_form f.p v
  unfold intPart fracPart
  rw [h.bit, one_eq h, h2]
  generalize v / 2 ^ f.p - 1 = t
  have hp := Nat.two_pow_pos (Kof f)
  by_cases ht : Kof f ≤ t
  · obtain ⟨k, rfl⟩ : ∃ k, t = k + Kof f := ⟨t - Kof f, by omega⟩
    have e : m * 2 ^ (k + Kof f) = m * 2 ^ k * 2 ^ Kof f := by rw [pow_add]; ring
    rw [e, Nat.mul_div_cancel _ hp, Nat.mul_mod_left, trunc_zero, units_zero, ← e]
    exact ⟨trunc_exact h1, rfl⟩
  · obtain ⟨k, hk⟩ : ∃ k, Kof f = k + t := ⟨Kof f - t, by omega⟩
    rw [hk, pow_add, Nat.mul_div_mul_right _ _ (Nat.two_pow_pos t), Nat.mul_mod_mul_right, ← pow_add]
    constructor
    · exact trunc_exact (Nat.lt_of_le_of_lt (Nat.div_le_self _ _) h1)
    · exact trunc_exact (Nat.lt_of_le_of_lt (Nat.mod_le _ _) h1)

theorem magnitude_one (h : Agrees I f) (d : Nat) (hd : d < 2 ^ (f.width - 1)) :
    magnitude f d = (units f.p d : ℚ) / one I := by
  rw [magnitude_plain h hd, one_eq h, zpow_neg, zpow_natCast, ← div_eq_mul_inv]; push_cast; rfl

theorem shiftBig_eq (n : Nat) (e : Int) : shiftBig n e = scale n e := by
  unfold shiftBig scale
  by_cases he : e < 0
  · rw [if_pos he, if_neg (by omega), Nat.shiftRight_eq_div_pow]; congr 2; omega
  · rw [if_neg he, if_pos (by omega), Nat.shiftLeft_eq]; congr 2; omega

theorem intPart_plain (h : Agrees I f) {v : Nat} (hv : Plain f v) : Plain f (intPart I v) := by
  rw [plain_iff h] at hv ⊢
  refine Nat.lt_of_le_of_lt ?_ hv
  apply (units_le_iff (p := f.p)).1
  rw [(parts_eq h v).1]
  exact Nat.div_mul_le_self _ _

theorem fracPart_plain (h : Agrees I f) {v : Nat} (hv : Plain f v) : Plain f (fracPart I v) := by
  rw [plain_iff h] at hv ⊢
  refine Nat.lt_of_le_of_lt ?_ hv
  apply (units_le_iff (p := f.p)).1
  rw [(parts_eq h v).2]
  exact Nat.mod_le _ _

/-- `ubigint(v)` is the integer part. -/
theorem toBig_eq (h : Agrees I f) {v : Nat} (hv : Plain f v) : toBig I v = units f.p v / one I := by
  have hi := intPart_plain h hv
  have hdec := decompose_eq h hi.2
  rw [magnitude_one h _ hi.1, (parts_eq h v).1] at hdec
  have ho : (0 : ℚ) < one I := by exact_mod_cast one_pos h
  rw [show ((units f.p v / one I * one I : Nat) : ℚ) / one I = ((units f.p v / one I : Nat) : ℚ) by
    push_cast; field_simp] at hdec
  unfold toBig
  dsimp only
  rw [shiftBig_eq]
  have hs := scale_spec (getPrecision I (intPart I v)) (getExponent I (intPart I v))
  rw [hdec] at hs
  have a : scale (getPrecision I (intPart I v)) (getExponent I (intPart I v)) ≤ units f.p v / one I := by
    exact_mod_cast hs.1
  have b : units f.p v / one I < scale (getPrecision I (intPart I v)) (getExponent I (intPart I v)) + 1 := by
    exact_mod_cast hs.2
  omega

theorem units_pos {p a : Nat} (h : a ≠ 0) : 0 < units p a := by
  have := units_lt (p := p) (Nat.pos_of_ne_zero h)
  omega

/-- What a successful search means. -/
theorem divideLoop_some (h : Agrees I f) {v m d : Nat} (hv : Plain f v) (hfp : fracPart I v ≠ 0) :
    ∀ (fuel n : Nat), 0 < n → n + fuel ≤ 2 ^ 7 → divideLoop I (2 ^ 17) (intPart I v) (fracPart I v) fuel n = .done (some (m, d)) →
      ∃ k, k < 2 ^ 7 ∧ 0 < k ∧ d ≤ 2 ^ 17 ∧ 0 < d ∧ units f.p v < one I ∧ Nat.Coprime k d ∧ m = ofNat I k ∧ fdiv I (ofNat I k) (ofNat I d) = v := by
  intro fuel
  have ho := one_pos h
  induction fuel with
  | zero => intro n _ _ hl; simp [divideLoop] at hl
  | succ fuel ih =>
    intro n hn hf hl
    rw [divideLoop] at hl
    split at hl
    · rename_i d' hs
      split at hl
      · rename_i hcond
        dsimp only at hl
        split at hl
        · rename_i heq
          simp only [Outcome.done.injEq, Option.some.injEq, Prod.mk.injEq] at hl
          obtain ⟨hm, rfl⟩ := hl
          have hd17 : d' ≤ 2 ^ 17 := hcond.1
          obtain ⟨hn1, hn2⟩ := ofNat_eq h (n := n) (by omega)
          obtain ⟨hd1, hd2⟩ := ofNat_eq h (n := d') (by omega)
          -- the denominator is not zero
          have hd0 : 0 < d' := by
            unfold toSize at hs
            split at hs
            · cases hs
            · simp only [Outcome.done.injEq] at hs
              rw [← hs, h.bit]
              apply Nat.div_pos _ ho
              have : ofNat I n ≤ fdiv I (ofNat I n) (fracPart I v) := by
                unfold fdiv
                rw [h.bit]
                apply nearest_ge h (units_pos hfp)
                · rw [Nat.mul_comm]
                  apply Nat.mul_le_mul_left
                  rw [(parts_eq h v).2]
                  exact (Nat.mod_lt _ ho).le
                · exact hn2.le
              refine Nat.le_trans ?_ (units_le this)
              rw [hn1]
              exact Nat.le_mul_of_pos_left _ hn
          -- the integer part is zero
          have hsmall : units f.p v < one I := by
            by_contra hbig
            have hip : one I ≤ units f.p (intPart I v) := by
              rw [(parts_eq h v).1]
              exact Nat.le_mul_of_pos_left _ (Nat.div_pos (by omega) ho)
            have hdpos : 0 < units f.p (ofNat I d') := by rw [hd1]; exact Nat.mul_pos hd0 ho
            have s1 : ofNat I d' ≤ fmul I (intPart I v) (ofNat I d') := by
              unfold fmul
              rw [h.bit]
              exact nearest_ge h ho (Nat.mul_le_mul_right _ hip) hd2.le
            have s2 : ofNat I d' ≤ fadd I (fmul I (intPart I v) (ofNat I d')) (ofNat I n) := by
              unfold fadd
              rw [h.bit]
              apply nearest_ge h Nat.one_pos _ hd2.le
              rw [Nat.one_mul]
              exact Nat.le_trans (units_le s1) (Nat.le_add_right _ _)
            have s3 : ofNat I 1 ≤ fracPart I v := by
              rw [← heq]
              unfold fdiv
              rw [h.bit]
              obtain ⟨o1, o2⟩ := ofNat_eq h (n := 1) (by norm_num)
              apply nearest_ge h hdpos _ o2.le
              rw [o1, Nat.one_mul]
              exact Nat.mul_le_mul_right _ (units_le s2)
            have s4 := units_le (p := f.p) s3
            rw [(ofNat_eq h (n := 1) (by norm_num)).1, (parts_eq h v).2] at s4
            have := Nat.mod_lt (units f.p v) ho
            omega
          have hip0 : intPart I v = 0 := by
            apply units_inj (p := f.p)
            rw [(parts_eq h v).1, Nat.div_eq_of_lt hsmall, units_zero, Nat.zero_mul]
          have hfv : fracPart I v = v := by
            apply units_inj (p := f.p)
            rw [(parts_eq h v).2, Nat.mod_eq_of_lt hsmall]
          have hmul0 : fmul I 0 (ofNat I d') = 0 := by
            unfold fmul
            rw [h.bit, units_zero, Nat.zero_mul]
            have := nearest_exact h (c := 0) ho (Nat.zero_le _)
            rwa [units_zero, Nat.mul_zero] at this
          have hadd : fadd I 0 (ofNat I n) = ofNat I n := by
            unfold fadd
            rw [h.bit, units_zero, Nat.zero_add]
            have := nearest_exact h (c := ofNat I n) Nat.one_pos hn2.le
            rwa [Nat.one_mul] at this
          rw [hip0, hmul0, hadd] at hm heq
          rw [hfv] at heq
          exact ⟨n, by omega, hn, hd17, hd0, hsmall, hcond.2.2, hm.symm, heq⟩
        · exact ih (n + 1) (by omega) (by omega) hl
      · exact ih (n + 1) (by omega) (by omega) hl
    · cases hl

theorem units_ofNat_div (h : Agrees I f) {n d : Nat} (hn : n < 2 ^ 23) (hd : d < 2 ^ 23) :
    fdiv I (ofNat I n) (ofNat I d) = nearest I (n * one I * one I) (d * one I) := by
  unfold fdiv
  rw [h.bit, (ofNat_eq h hn).1, (ofNat_eq h hd).1]

/-- `T(n)/T(d)` is the rounded quotient. -/
theorem fdiv_rounded (h : Agrees I f) {n d v : Nat} (hn : n < 2 ^ 23) (hd : d < 2 ^ 23) (hd0 : 0 < d)
    (hv : fdiv I (ofNat I n) (ofNat I d) = v) (hp : Plain f v) : Rounded f (n / d) v := by
  have ho := one_pos h
  rw [units_ofNat_div h hn hd] at hv
  have := nearest_rounded h (x := n * one I * one I) (y := d * one I) (Nat.mul_pos hd0 ho)
    (by rw [hv, infinity_eq h]; exact (plain_iff h v).1 hp)
  rw [hv] at this
  have e : ((n * one I * one I : Nat) : ℚ) / ((d * one I : Nat) : ℚ) * 2 ^ (-(Kof f : ℤ)) = n / d := by
    have hoq : ((one I : Nat) : ℚ) = 2 ^ (Kof f : ℤ) := by rw [one_eq h, two_zpow_nat]
    have hd' : (d : ℚ) ≠ 0 := by exact_mod_cast hd0.ne'
    push_cast
    rw [hoq, zpow_neg]
    have := two_zpow_ne (Kof f : ℤ)
    field_simp
  rwa [e] at this

theorem fract_zero_iff (h : Agrees I f) (v : Nat) : fracPart I v = 0 ↔ units f.p v % one I = 0 := by
  rw [← (parts_eq h v).2]
  constructor
  · intro hz; rw [hz, units_zero]
  · intro hz; exact units_inj (p := f.p) (by rw [hz, units_zero])

/-- What the fraction made from a native number is. -/
theorem toFraction_done (h : Agrees I f) {v : Nat} (hv : Plain f v) {a : UFrac} (ha : toFraction I v = .done a) :
    a.den ≠ 0 ∧ Nat.Coprime a.num a.den ∧ ((a.num : ℚ) / a.den = magnitude f v ∨
      (magnitude f v < 1 ∧ 0 < a.num ∧ a.num < 2 ^ 7 ∧ a.den ≤ 2 ^ 17 ∧ Rounded f (a.num / a.den) v)) := by
  have ho := one_pos h
  have hoq : (0 : ℚ) < one I := by exact_mod_cast ho
  have hdec := decompose_eq h hv.2
  -- the exact fraction
  have exact_ok : ∀ u : UFrac, u.den ≠ 0 → (u.num : ℚ) / u.den = magnitude f v →
      u.simplify.den ≠ 0 ∧ (u.num ≠ 0 → Nat.Coprime u.simplify.num u.simplify.den) ∧
        (u.simplify.num : ℚ) / u.simplify.den = magnitude f v := by
    intro u h1 h2
    obtain ⟨c1, c2, c3⟩ := Bigfloat.ufrac_simplify_correct u h1
    refine ⟨c3, c2, ?_⟩
    rw [← h2]
    exact c1
  have exact_done : ∀ u : UFrac, u = (if getExponent I v > 0 then (⟨getPrecision I v <<< (getExponent I v).natAbs, 1⟩ : UFrac)
      else if getExponent I v < 0 then ⟨getPrecision I v, 1 <<< (getExponent I v).natAbs⟩ else ⟨getPrecision I v, 1⟩) →
      u.den ≠ 0 ∧ (u.num : ℚ) / u.den = magnitude f v := by
    intro u hu
    rw [← hdec]
    by_cases h1 : getExponent I v > 0
    · rw [if_pos h1] at hu
      subst hu
      refine ⟨by simp, ?_⟩
      obtain ⟨k, hk⟩ : ∃ k : Nat, getExponent I v = k := ⟨(getExponent I v).toNat, by omega⟩
      rw [hk, Nat.shiftLeft_eq, two_zpow_nat]
      simp
    · rw [if_neg h1] at hu
      by_cases h2 : getExponent I v < 0
      · rw [if_pos h2] at hu
        subst hu
        obtain ⟨k, hk⟩ : ∃ k : Nat, getExponent I v = -k := ⟨(-getExponent I v).toNat, by omega⟩
        rw [hk, Int.natAbs_neg, Int.natAbs_natCast, Nat.shiftLeft_eq, Nat.one_mul, zpow_neg, ← div_eq_mul_inv, two_zpow_nat]
        exact ⟨(Nat.two_pow_pos k).ne', rfl⟩
      · rw [if_neg h2] at hu
        subst hu
        have : getExponent I v = 0 := by omega
        rw [this]
        simp
  unfold toFraction at ha
  dsimp only at ha
  by_cases hneg : getExponent I v < 0
  · rw [if_pos hneg] at ha
    unfold toDivide at ha
    dsimp only at ha
    split at ha
    · rename_i m d hcase
      simp only [Outcome.done.injEq] at ha
      subst ha
      split at hcase
      · rename_i hz
        simp only [Outcome.done.injEq, Option.some.injEq, Prod.mk.injEq] at hcase
        obtain ⟨rfl, rfl⟩ := hcase
        refine ⟨Nat.one_ne_zero, Nat.coprime_one_right _, Or.inl ?_⟩
        dsimp only
        rw [toBig_eq h (intPart_plain h hv), (parts_eq h v).1, Nat.mul_div_cancel _ ho, magnitude_one h _ hv.1]
        rw [fract_zero_iff h] at hz
        rw [eq_div_iff hoq.ne']
        have := Nat.div_mul_cancel (Nat.dvd_of_mod_eq_zero hz)
        rw [Nat.cast_one, div_one]
        exact_mod_cast this
      · rename_i hnz
        obtain ⟨k, k1, k2, k3, k4, k5, kc, k6, k7⟩ := divideLoop_some h hv hnz _ _ (by norm_num) (by norm_num) hcase
        have hk := ofNat_eq h (n := k) (by omega)
        have hkp : Plain f (ofNat I k) := (plain_iff h _).2 (by rw [← infinity_eq h]; exact hk.2)
        refine ⟨k4.ne', ?_, Or.inr ⟨?_, ?_, ?_, k3, ?_⟩⟩
        · dsimp only; rw [k6, toBig_eq h hkp, hk.1, Nat.mul_div_cancel _ ho]; exact kc
        · rw [magnitude_one h _ hv.1, div_lt_one hoq]; exact_mod_cast k5
        · dsimp only; rw [k6, toBig_eq h hkp, hk.1, Nat.mul_div_cancel _ ho]; exact k2
        · dsimp only; rw [k6, toBig_eq h hkp, hk.1, Nat.mul_div_cancel _ ho]; exact k1
        · dsimp only
          rw [k6, toBig_eq h hkp, hk.1, Nat.mul_div_cancel _ ho]
          exact fdiv_rounded h (by omega) (by omega) k4 k7 hv
    · simp only [Outcome.done.injEq] at ha
      subst ha
      obtain ⟨e1, e2⟩ := exact_done _ rfl
      obtain ⟨e3, ec, e4⟩ := exact_ok _ e1 e2
      refine ⟨e3, ec ?_, Or.inl e4⟩
      intro hz
      rw [hz, Nat.cast_zero, zero_div, magnitude_one h _ hv.1, eq_comm, div_eq_zero_iff, Nat.cast_eq_zero, Nat.cast_eq_zero] at e2
      have hu : units f.p v = 0 := by omega
      rename_i hcase
      rw [if_pos ((fract_zero_iff h v).2 (by rw [hu, Nat.zero_mod]))] at hcase
      cases hcase
    · cases ha
    · cases ha
  · rw [if_neg hneg] at ha
    simp only [Outcome.done.injEq] at ha
    subst ha
    obtain ⟨e1, e2⟩ := exact_done _ rfl
    obtain ⟨e3, ec, e4⟩ := exact_ok _ e1 e2
    refine ⟨e3, ec ?_, Or.inl e4⟩
    intro hz
    rw [hz, Nat.cast_zero, zero_div, magnitude_one h _ hv.1, eq_comm, div_eq_zero_iff, Nat.cast_eq_zero, Nat.cast_eq_zero] at e2
    have hu : units f.p v = 0 := by omega
    have hv0 : v = 0 := units_inj (p := f.p) (by rw [hu, units_zero])
    have := getExponent_eq h hv.2
    subst hv0
    have hl := h.large
    rw [if_pos (by unfold field; simp)] at this
    omega

/-- The search is defined when the fraction part is not tiny. -/
theorem divideLoop_defined (h : Agrees I f) {ip fp : Nat} (hfp : one I ≤ units f.p fp * 2 ^ 57) :
    ∀ (fuel n : Nat), n + fuel ≤ 2 ^ 7 → ∃ r, divideLoop I (2 ^ 17) ip fp fuel n = .done r := by
  intro fuel
  have ho := one_pos h
  have hl := h.large
  induction fuel with
  | zero => intro n _; exact ⟨none, rfl⟩
  | succ fuel ih =>
    intro n hf
    obtain ⟨r, hr⟩ := ih (n + 1) (by omega)
    have hn := ofNat_eq h (n := n) (by omega)
    have hc : units f.p (trunc f.p (127 * 2 ^ 57 * one I)) = 127 * 2 ^ 57 * one I := by
      rw [one_eq h, Nat.mul_assoc, ← pow_add]
      exact trunc_exact (Nat.lt_of_lt_of_le (by norm_num : 127 < 2 ^ 24) (Nat.pow_le_pow_right (by norm_num) (by omega)))
    have hsize : ∃ s, toSize I (fdiv I (ofNat I n) fp) = .done s := by
      have hle : fdiv I (ofNat I n) fp ≤ trunc f.p (127 * 2 ^ 57 * one I) := by
        unfold fdiv
        rw [h.bit]
        apply nearest_le h
        · by_contra h0
          have : units f.p fp = 0 := by omega
          rw [this, Nat.zero_mul] at hfp
          omega
        · rw [hc, hn.1]
          calc n * one I * one I ≤ 127 * one I * one I :=
                Nat.mul_le_mul_right _ (Nat.mul_le_mul_right _ (by omega))
            _ ≤ 127 * one I * (units f.p fp * 2 ^ 57) := Nat.mul_le_mul_left _ hfp
            _ = units f.p fp * (127 * 2 ^ 57 * one I) := by ring
      have hu := units_le (p := f.p) hle
      rw [hc] at hu
      unfold toSize
      rw [if_neg, h.bit]
      · exact ⟨_, rfl⟩
      · rw [h.bit]
        rintro (hbad | hbad)
        · have := units_le (p := f.p) hbad
          rw [units_infinity h] at this
          have h3 : 127 * 2 ^ 57 < 2 ^ (f.bias + 1) :=
            Nat.lt_of_lt_of_le (by norm_num : 127 * 2 ^ 57 < 2 ^ 64) (Nat.pow_le_pow_right (by norm_num) (by omega))
          have := Nat.mul_lt_mul_of_pos_right h3 ho
          omega
        · have := (Nat.le_div_iff_mul_le ho).1 hbad
          have h3 : 127 * 2 ^ 57 < 2 ^ 64 := by norm_num
          have := Nat.mul_lt_mul_of_pos_right h3 ho
          omega
    obtain ⟨s, hs⟩ := hsize
    rw [divideLoop, hs]
    dsimp only
    split
    · split
      · exact ⟨_, rfl⟩
      · exact ⟨r, hr⟩
    · exact ⟨r, hr⟩

theorem toFraction_defined (h : Agrees I f) {v : Nat}
    (hf : units f.p v % one I = 0 ∨ one I ≤ units f.p v % one I * 2 ^ 57) : ∃ a, toFraction I v = .done a := by
  have hdiv : ∃ r, toDivide I v = .done r := by
    unfold toDivide
    dsimp only
    split
    · exact ⟨_, rfl⟩
    · rename_i hnz
      rw [fract_zero_iff h] at hnz
      rcases hf with hf | hf
      · exact absurd hf hnz
      · apply divideLoop_defined h _ _ _ (by norm_num)
        rw [(parts_eq h v).2]; exact hf
  obtain ⟨r, hr⟩ := hdiv
  unfold toFraction
  dsimp only
  rw [hr]
  split
  · cases r with
    | none => exact ⟨_, rfl⟩
    | some md => obtain ⟨m, d⟩ := md; exact ⟨_, rfl⟩
  · exact ⟨_, rfl⟩

theorem fract_eq (h : Agrees I f) {v : Nat} (hv : Plain f v) :
    Int.fract (magnitude f v) = ((units f.p v % one I : Nat) : ℚ) / one I := by
  have ho := one_pos h
  have hoq : (0 : ℚ) < one I := by exact_mod_cast ho
  rw [magnitude_one h _ hv.1, Int.fract_eq_iff]
  refine ⟨by positivity, ?_, ?_⟩
  · rw [div_lt_one hoq]; exact_mod_cast Nat.mod_lt _ ho
  · refine ⟨((units f.p v / one I : Nat) : ℤ), ?_⟩
    rw [← sub_div, div_eq_iff hoq.ne']
    have := Nat.div_add_mod (units f.p v) (one I)
    have e : (units f.p v : ℚ) = one I * (units f.p v / one I : Nat) + (units f.p v % one I : Nat) := by
      exact_mod_cast this.symm
    rw [e, Int.cast_natCast]
    ring

/-- The search is undefined for tiny numbers. -/
theorem toFraction_undefined (h : Agrees I f) {v : Nat} (h0 : v ≠ 0) (hv : Plain f v)
    (hs : units f.p v * 2 ^ 64 ≤ one I) : toFraction I v = .undefined := by
  have ho := one_pos h
  have hl := h.large
  have hpos := units_pos (p := f.p) h0
  have hlt : units f.p v < one I := by omega
  have hfv : fracPart I v = v := by
    apply units_inj (p := f.p)
    rw [(parts_eq h v).2, Nat.mod_eq_of_lt hlt]
  have h1 := ofNat_eq h (n := 1) (by norm_num)
  have hsize : toSize I (fdiv I (ofNat I 1) v) = .undefined := by
    have hc : units f.p (trunc f.p (1 * 2 ^ (64 + Kof f))) = 1 * 2 ^ (64 + Kof f) :=
      trunc_exact (Nat.one_lt_two_pow (by omega))
    rw [Nat.one_mul, pow_add, ← one_eq h] at hc
    have hge : trunc f.p (2 ^ 64 * one I) ≤ fdiv I (ofNat I 1) v := by
      unfold fdiv
      rw [h.bit]
      apply nearest_ge h hpos
      · rw [hc, h1.1, Nat.one_mul, ← Nat.mul_assoc]
        exact Nat.mul_le_mul_right _ hs
      · by_contra hcon
        have := units_lt (p := f.p) (Nat.lt_of_not_le hcon)
        rw [hc, units_infinity h] at this
        have h3 : 2 ^ 64 ≤ 2 ^ (f.bias + 1) := Nat.pow_le_pow_right (by norm_num) (by omega)
        have := Nat.mul_le_mul_right (one I) h3
        omega
    unfold toSize
    rw [if_pos]
    right
    rw [h.bit, Nat.le_div_iff_mul_le ho, ← hc]
    exact units_le hge
  have hexp : getExponent I v < 0 := by
    have hdec := decompose_eq h hv.2
    by_contra hneg
    obtain ⟨k, hk⟩ : ∃ k : Nat, getExponent I v = k := ⟨(getExponent I v).toNat, by omega⟩
    have hoq : (0 : ℚ) < one I := by exact_mod_cast ho
    rw [magnitude_one h _ hv.1, hk, two_zpow_nat] at hdec
    have hmlt : ((units f.p v : Nat) : ℚ) / one I < 1 := by rw [div_lt_one hoq]; exact_mod_cast hlt
    rw [← hdec] at hmlt
    have : getPrecision I v * 2 ^ k < 1 := by exact_mod_cast hmlt
    have hz : getPrecision I v * 2 ^ k = 0 := by omega
    have hz' : ((getPrecision I v : ℚ)) * ((2 ^ k : Nat) : ℚ) = 0 := by exact_mod_cast hz
    rw [hz'] at hdec
    have : (0 : ℚ) < (units f.p v : ℚ) / one I := div_pos (by exact_mod_cast hpos) hoq
    linarith
  unfold toFraction
  dsimp only
  rw [if_pos hexp]
  have : toDivide I v = .undefined := by
    unfold toDivide
    dsimp only
    rw [hfv, if_neg h0, show 2 ^ 7 - 1 = 126 + 1 by norm_num, divideLoop, hsize]
  rw [this]

end ELC.Float
