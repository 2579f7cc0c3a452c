import Verif.FloatText.Text
/-! Making a text comes to an end. -/
namespace ELC.FloatText

open ELC.Float ELC.Float.Spec
open ELC.Bigfloat (UFrac)
open ELC.Bigfloat.Spec (uvalue)
open ELC.Numeral (Rep Usable)

variable {I : Info} {f : Format} {R : Rep}

theorem ite_ends {α : Type} {c : Prop} [Decidable c] {a b : Outcome α} (ha : a ≠ .spins) (hb : b ≠ .spins) :
    (if c then a else b) ≠ .spins := by
  by_cases hc : c
  · rw [if_pos hc]; exact ha
  · rw [if_neg hc]; exact hb

theorem makeFloat_ends (n : Nat) (e : Int) : makeFloat I n e ≠ .spins := by
  unfold makeFloat
  dsimp only
  refine ite_ends ?_ (ite_ends ?_ (ite_ends ?_ (ite_ends ?_ ?_))) <;> (intro hc; cases hc)

theorem toFloat_ends (h : Agrees I f) (a : UFrac) : toFloat I a ≠ .spins := by
  obtain ⟨N, D⟩ := a
  by_cases hD : D = 0
  · subst hD; unfold toFloat; simp
  · by_cases hN : N = 0
    · subst hN
      rw [toFloat_zero h hD]
      exact makeFloat_ends _ _
    · obtain ⟨y, g, _, _, ⟨n, e, h3, _⟩ | ⟨_, _, _, h6⟩⟩ := toFloat_steps h hN hD
      · rw [h3]; exact makeFloat_ends _ _
      · rw [h6]; exact makeFloat_ends _ _

theorem roundDigit_lt' {r num : Nat} (hr : 4 ≤ r) (hn : 1 ≤ num) : roundDigit r num < num := by
  have h4 : num / r ≤ num / 4 := Nat.div_le_div_left hr (by norm_num)
  unfold roundDigit
  split
  · rename_i hc
    rcases Nat.lt_or_ge num 2 with h2 | h2
    · have : num = 1 := by omega
      subst this
      rw [Nat.mod_eq_of_lt (by omega)] at hc
      omega
    · omega
  · omega

theorem shortenLoop_ends (h : Agrees I f) {r : Nat} (hr : 4 ≤ r) {v : Nat} (h0 : v ≠ 0) : ∀ (fuel num : Nat) (exp : ℤ)
    (pows : UFrac) (bnum : Nat) (bexp : ℤ), num < fuel → pows.den ≠ 0 →
    shortenLoop I r v fuel num exp pows bnum bexp ≠ .spins := by
  intro fuel
  induction fuel with
  | zero => intro _ _ _ _ _ hf; omega
  | succ fuel ih =>
    intro num exp pows bnum bexp hf hd hs
    rw [shortenLoop] at hs
    have hoff : ∀ k, Bigfloat.Spec.Finite (UFrac.ofNat k) := by intro k; simp [Bigfloat.Spec.Finite, UFrac.ofNat]
    have hof : ∀ k, uvalue (UFrac.ofNat k) = k := by intro k; simp [uvalue, UFrac.ofNat]
    obtain ⟨num1, exp1, pows1, bnum1, bexp1, hd1, hle, hpos, hs⟩ : ∃ (num1 : Nat) (exp1 : ℤ) (pows1 : UFrac) (bnum1 : Nat) (bexp1 : ℤ),
        pows1.den ≠ 0 ∧ num1 ≤ num ∧ (num ≠ 0 → num1 ≠ 0) ∧
        (match toFloat I ((UFrac.ofNat (roundDigit r num1)).mul (pows1.mul (UFrac.ofNat r))) with
          | .done c => if c = v then shortenLoop I r v fuel (roundDigit r num1) (exp1 + 1) (pows1.mul (UFrac.ofNat r))
              (roundDigit r num1) (exp1 + 1) else .done (bnum1, bexp1)
          | .undefined => .undefined
          | .spins => .spins) = Outcome.spins := by
      by_cases hz : num % r = 0
      · simp only [hz, if_true] at hs
        obtain ⟨m1, m2⟩ := Bigfloat.ufrac_mul_correct pows _ hd (hoff r)
        refine ⟨num / r, exp + 1, pows.mul (UFrac.ofNat r), num / r, exp + 1, m2, Nat.div_le_self _ _, ?_, hs⟩
        intro hn hc
        have := Nat.div_mul_cancel (Nat.dvd_of_mod_eq_zero hz)
        rw [hc] at this
        omega
      · simp only [hz, if_false] at hs
        exact ⟨num, exp, pows, bnum, bexp, hd, le_rfl, fun h => h, hs⟩
    obtain ⟨m1, m2⟩ := Bigfloat.ufrac_mul_correct pows1 _ hd1 (hoff r)
    obtain ⟨m3, m4⟩ := Bigfloat.ufrac_mul_correct (UFrac.ofNat (roundDigit r num1)) _ (hoff _) m2
    split at hs
    · rename_i c hc
      by_cases hcv : c = v
      · rw [if_pos hcv] at hs
        subst hcv
        by_cases hn : num = 0
        · have hnx := toFloat_next h m4 h0 hc
          have hz : roundDigit r num1 = 0 := by
            have : num1 = 0 := by omega
            subst this
            unfold roundDigit
            rw [Nat.zero_mod, Nat.zero_div, if_neg (by omega)]
          have e : (((UFrac.ofNat (roundDigit r num1)).mul (pows1.mul (UFrac.ofNat r))).num : ℚ) /
              ((UFrac.ofNat (roundDigit r num1)).mul (pows1.mul (UFrac.ofNat r))).den = 0 := by
            have := m3
            rw [hof, hz, Nat.cast_zero, zero_mul] at this
            rw [hz]
            exact this
          rw [e] at hnx
          exact h0 (next_zero h hnx)
        · exact ih _ _ _ _ _ (by have := roundDigit_lt' (r := r) (num := num1) hr (Nat.pos_of_ne_zero (hpos hn)); omega) m2 hs
      · rw [if_neg hcv] at hs; cases hs
    · cases hs
    · rename_i hc
      exact toFloat_ends h _ hc

theorem halfLoop_one : ∀ (e num new : Nat), halfLoop 1 e num new = (num, 0, new + e) := by
  intro e
  induction e with
  | zero => intro num new; rfl
  | succ e ih => intro num new; rw [halfLoop, if_pos (Nat.mod_one _), Nat.div_one, ih]; congr 2; omega

theorem evenDigits_two (n : Nat) (e : ℤ) : (evenDigits 2 n e).1 = n := by
  unfold evenDigits
  split
  · simp
  · split
    · simp [halfLoop_one]
    · rfl

theorem powFrac_den {r : Nat} (hr : 2 ≤ r) (e : ℤ) : (Numeral.powFrac r e).den ≠ 0 := by
  have hrq : (0 : ℚ) < r := by exact_mod_cast (by omega : 0 < r)
  have hof : ∀ k, uvalue (UFrac.ofNat k) = k := by intro k; simp [uvalue, UFrac.ofNat]
  have hoff : ∀ k, Bigfloat.Spec.Finite (UFrac.ofNat k) := by intro k; simp [Bigfloat.Spec.Finite, UFrac.ofNat]
  unfold Numeral.powFrac
  split
  · exact (Bigfloat.ufrac_div_correct (UFrac.ofNat 1) (UFrac.ofNat (r ^ e.natAbs)) (hoff _) (hoff _)
      (by rw [hof]; push_cast; exact pow_ne_zero _ hrq.ne')).2
  · exact hoff _

theorem applyThreshold_ends (h : Agrees I f) {r : Nat} (hr : 2 ≤ r) (he : r % 2 = 0) {v num : Nat} (exp : ℤ) (h0 : v ≠ 0)
    (hn : 1 ≤ num) (hsmall : r = 2 → num < 2 ^ (f.p + 1)) : applyThreshold I r num exp v ≠ .spins := by
  have hT : 2 ≤ 2 ^ (f.p + 1) := by rw [pow_succ]; have := Nat.two_pow_pos f.p; omega
  have hb : I.base * 2 = 2 ^ (f.p + 1) := by rw [h.base, pow_succ]
  unfold applyThreshold
  dsimp only
  rw [hb]
  obtain ⟨n1, e1, d1, d2⟩ := dropDigits_spec (T := 2 ^ (f.p + 1)) hr (digitLimit_spec h hr) hn exp
  rw [d1]
  dsimp only
  obtain ⟨n2, e2, l1, l2⟩ := roundLoop_spec hr he hT (n1 + 1) n1 e1 (by omega) d2
  rw [l1]
  dsimp only
  by_cases hr2 : r = 2
  · -- nothing is rounded
    have hn1 : n1 ≤ num := by
      unfold dropDigits at d1
      obtain ⟨k, h1, _, _⟩ := integerLog_spec hr hn
      rw [h1] at d1
      replace d1 : some (if 0 < (k : ℤ) - digitLimit I r then (num / r ^ ((k : ℤ) - digitLimit I r).toNat, exp + ((k : ℤ) - digitLimit I r))
        else (num, exp)) = some (n1, e1) := d1
      split at d1
      · simp only [Option.some.injEq, Prod.mk.injEq] at d1
        rw [← d1.1]; exact Nat.div_le_self _ _
      · simp only [Option.some.injEq, Prod.mk.injEq] at d1
        omega
    have hs := hsmall hr2
    rw [roundLoop, if_neg (by
      have : 2 ^ (f.p + 1) ≤ 2 ^ (f.p + 1) * r := Nat.le_mul_of_pos_right _ (by omega)
      omega)] at l1
    simp only [Option.some.injEq, Prod.mk.injEq] at l1
    rw [if_neg (by omega)]
    exact fun hc => by cases hc
  · split
    · exact shortenLoop_ends h (by omega) h0 _ _ _ _ _ _ (by omega) (powFrac_den hr _)
    · exact fun hc => by cases hc

theorem digitsText_ends (h : Agrees I f) (hR : Usable R) {w : Nat} (hw : 0 < w) {v : Nat} (hv : Plain f v) (h0 : v ≠ 0) :
    digitsText I R w v ≠ .spins := by
  have hr := hR.good.two
  have hpos := precision_pos h hv h0
  have htext : ∀ {o : Option (List Nat)} {t}, o = some t → text o ≠ .spins := by
    rintro _ t rfl hc; cases hc
  unfold digitsText
  dsimp only
  by_cases he : R.radix % 2 = 0
  · rw [if_pos he]
    have hdec := decompose_eq h hv.2
    have hev := evenDigits_spec (n := getPrecision I v) hr he (getExponent I v)
    have hnz : (0 : ℚ) < getPrecision I v * 2 ^ getExponent I v := mul_pos (by exact_mod_cast hpos) (two_zpow_pos _)
    have hd1 : 1 ≤ (evenDigits R.radix (getPrecision I v) (getExponent I v)).1 := by
      by_contra hc
      have hz : (evenDigits R.radix (getPrecision I v) (getExponent I v)).1 = 0 := by omega
      rw [hz, Nat.cast_zero, zero_mul] at hev
      linarith
    have hends := applyThreshold_ends h hr he (evenDigits R.radix (getPrecision I v) (getExponent I v)).2 h0 hd1
      (fun e => by rw [e, evenDigits_two]; exact getPrecision_lt h v)
    cases hs : applyThreshold I R.radix (evenDigits R.radix (getPrecision I v) (getExponent I v)).1
        (evenDigits R.radix (getPrecision I v) (getExponent I v)).2 v with
    | undefined => exact fun hc => by cases hc
    | spins => exact absurd hs hends
    | done x =>
      obtain ⟨num, exp⟩ := x
      dsimp only
      have hn := applyThreshold_spec h hr he _ _ hv h0 hd1 (by rw [hev, hdec]) hs
      have hnum : 0 < num := by
        rcases Nat.eq_zero_or_pos num with hz | hp
        · rw [hz, Nat.cast_zero, zero_mul] at hn
          exact absurd (next_zero h hn) h0
        · exact hp
      obtain ⟨t, t1, _⟩ := Numeral.toStringWithExp_spec hR.good hR.small hw hnum exp
      exact htext t1
  · rw [if_neg he]
    split
    · obtain ⟨a, a1, _⟩ := nativeWithExp_reads hR (getPrecision I v)
      obtain ⟨b, b1, _⟩ := Numeral.toStringBig_spec (R := R) hw hr hR.small (1 <<< (getExponent I v).natAbs)
      rw [a1]
      simp only [Option.bind_some, b1, Option.map_some]
      exact htext rfl
    · obtain ⟨t, t1, _⟩ := Numeral.toStringWithExp_spec hR.good hR.small hw (num := getPrecision I v <<< (getExponent I v).toNat)
        (by rw [Nat.shiftLeft_eq]; exact Nat.mul_pos hpos (Nat.two_pow_pos _)) 0
      exact htext t1

theorem divideLoop_ends {maxD ip fp : Nat} : ∀ fuel n, divideLoop I maxD ip fp fuel n ≠ .spins := by
  intro fuel
  induction fuel with
  | zero => intro n hc; cases hc
  | succ fuel ih =>
    intro n
    rw [divideLoop]
    split
    · split
      · dsimp only
        split
        · exact fun hc => by cases hc
        · exact ih _
      · exact ih _
    · exact fun hc => by cases hc

theorem toText_ends (h : Agrees I f) (hR : Usable R) {w : Nat} (hw : 0 < w) {v : Nat} (hv : Plain f v) :
    toText I R w v ≠ .spins := by
  by_cases h0 : v = 0
  · obtain ⟨s, hs, _⟩ := toText_integer (R := R) h hR (w := w) (n := 0) hv
      (by rw [h0, magnitude_one h _ (by have := hv.1; omega), units_zero]; simp) (by norm_num)
    rw [hs]; exact fun hc => by cases hc
  have hdig := digitsText_ends h hR hw hv h0
  have hsize : ∀ m, toSize I m ≠ .spins := by
    intro m; unfold toSize; split <;> exact fun hc => by cases hc
  have htext : ∀ {o : Option (List Nat)} {t}, o = some t → text o ≠ .spins := by
    rintro _ t rfl hc; cases hc
  intro hs
  unfold toText at hs
  split at hs
  · cases hs
  · rename_i hc
    unfold toDivide at hc
    dsimp only at hc
    split at hc
    · cases hc
    · exact divideLoop_ends _ _ hc
  · exact hdig hs
  · rename_i m d hdiv
    have hcase := toDivide_some h hv hdiv
    split at hs
    · have hd : 0 < d := by
        rcases hcase with ⟨_, e, _⟩ | ⟨_, _, _, _, e, _⟩ <;> omega
      have hm : toBig I m ≠ 0 ∨ m ≤ ofNat I (2 ^ 64 - 1) := by
        rcases hcase with ⟨_, e, _⟩ | ⟨k, k1, _, _, _, _, rfl, _⟩
        · contradiction
        · right
          have hk := ofNat_eq h (n := k) (by omega)
          exact le_ofNat h hk.2.le (by rw [hk.1]; exact Nat.mul_le_mul_right _ (by omega))
      obtain ⟨d', c, j, c1, _⟩ := Numeral.denominator_complement_correct hR.primes d hd 0
      rw [c1] at hs
      dsimp only at hs
      obtain ⟨b, b1, _⟩ := Numeral.toStringNative_spec (R := R) hR.good.two (d' * c % 2 ^ 64)
      by_cases hd' : d' ≠ 1
      · rw [if_pos hd'] at hs
        by_cases hle : m ≤ ofNat I (2 ^ 64 - 1)
        · rw [if_pos hle] at hs
          cases hts : toSize I m with
          | undefined => rw [hts] at hs; cases hs
          | spins => exact hsize _ hts
          | done n =>
            obtain ⟨a, a1, _⟩ := nativeWithExp_reads hR n
            rw [hts] at hs
            dsimp only at hs
            rw [a1] at hs
            simp only [Option.bind_some, b1, Option.map_some] at hs
            cases hs
        · rw [if_neg hle] at hs
          dsimp only at hs
          obtain ⟨a, a1, _⟩ := Numeral.toStringWithExp_spec hR.good hR.small hw
            (Nat.pos_of_ne_zero (hm.resolve_right hle)) 0
          rw [a1] at hs
          simp only [Option.bind_some, b1, Option.map_some] at hs
          cases hs
      · rw [if_neg hd'] at hs
        exact hdig hs
    · split at hs
      · cases hts : toSize I m with
        | undefined => rw [hts] at hs; cases hs
        | spins => exact hsize _ hts
        | done n =>
          obtain ⟨a, a1, _⟩ := nativeWithExp_reads hR n
          rw [hts] at hs
          dsimp only at hs
          exact htext a1 hs
      · exact hdig hs

end ELC.FloatText
