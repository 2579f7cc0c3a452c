import Verif.FloatText.Lemmas
/-! The texts. -/
namespace ELC.FloatText

open ELC.Float ELC.Float.Spec
open ELC.Bigfloat (UFrac)
open ELC.Bigfloat.Spec (uvalue)
open ELC.Numeral (Rep Usable stripZeros toStringNative toStringWithExp buildExpr denominatorComplement buildExprNat)
open ELC.Numeral.Spec (Reads Decimal Fraction)

variable {I : Info} {f : Format} {R : Rep}

theorem nearest_next {q : ℚ} {v : Nat} (hv : Nearest f q v) : Next f q v := by
  rcases le_total (magnitude f v) q with hle | hle
  · left
    refine ⟨hv.1, hle, fun d' hd' hq => ?_⟩
    have := hv.2 d' hd'
    rw [abs_of_nonneg (by linarith), abs_of_nonneg (by linarith)] at this
    linarith
  · right
    refine ⟨hv.1, hle, fun d' hd' hq => ?_⟩
    have := hv.2 d' hd'
    rw [abs_of_nonpos (by linarith), abs_of_nonpos (by linarith)] at this
    linarith

/-- Two numbers next to the same number are at most one place apart. -/
theorem next_next (h : Agrees I f) {q : ℚ} {v r : Nat} (hv : Next f q v) (hr : Next f q r) :
    r = v ∨ r + 1 = v ∨ r = v + 1 := by
  have key : ∀ {a b : Nat}, Down f q a → Up f q b → b = a ∨ b = a + 1 := by
    intro a b ha hb
    have hab : a ≤ b := (magnitude_le_magnitude h ha.1.1 hb.1.1).1 (le_trans ha.2.1 hb.2.1)
    by_contra hc
    have hp : Plain f (a + 1) := (plain_iff h _).2 (by have := (plain_iff h b).1 hb.1; omega)
    rcases le_total (magnitude f (a + 1)) q with hle | hle
    · have := (magnitude_le_magnitude h hp.1 ha.1.1).1 (ha.2.2 _ hp hle)
      omega
    · have := (magnitude_le_magnitude h hb.1.1 hp.1).1 (hb.2.2 _ hp hle)
      omega
  rcases hv with hv | hv <;> rcases hr with hr | hr
  · have h1 := (magnitude_le_magnitude h hr.1.1 hv.1.1).1 (hv.2.2 _ hr.1 hr.2.1)
    have h2 := (magnitude_le_magnitude h hv.1.1 hr.1.1).1 (hr.2.2 _ hv.1 hv.2.1)
    omega
  · have := key hv hr; omega
  · have := key hr hv; omega
  · have h1 := (magnitude_le_magnitude h hr.1.1 hv.1.1).1 (hr.2.2 _ hv.1 hv.2.1)
    have h2 := (magnitude_le_magnitude h hv.1.1 hr.1.1).1 (hv.2.2 _ hr.1 hr.2.1)
    omega

/-! ### integers -/

theorem nativeWithExp_reads (hR : Usable R) (n : Nat) : ∃ s, nativeWithExp R n 0 = some s ∧ Reads R s n := by
  have hr := hR.good.two
  unfold nativeWithExp
  by_cases hn : n = 0
  · subst hn
    obtain ⟨s, h1, h2⟩ := Numeral.toStringNative_spec (R := R) hr 0
    refine ⟨s, ?_, ?_⟩
    · rw [stripZeros, if_pos rfl]
      simp only [Option.bind_some, h1, buildExpr]
      rfl
    · exact .fraction (.decimal (by simpa using Numeral.numeral_decimal h2))
  · obtain ⟨m, k, h1, h2, h3, h4⟩ := Numeral.stripZeros_spec (R := R) hr n 0 (by omega)
    obtain ⟨s, h5, h6⟩ := Numeral.toStringNative_spec (R := R) hr m
    obtain ⟨t, h7, h8⟩ := Numeral.buildExpr_spec hR.good h6 (0 + (k : ℕ))
    refine ⟨t, ?_, ?_⟩
    · rw [h1]; simp only [Option.bind_some, h5, h7]
    · rw [show (n : ℚ) = (m : ℚ) * (R.radix : ℚ) ^ (0 + (k : ℕ) : ℤ) by rw [h2, zero_add, zpow_natCast]; push_cast; rfl]
      exact h8

/-- Without a factor `radix³` there is no exponent in the text. -/
theorem nativeWithExp_decimal (hR : Usable R) {n : Nat} (hn : ¬ R.radix ^ 3 ∣ n) :
    ∃ s, nativeWithExp R n 0 = some s ∧ Decimal R s n := by
  have hr := hR.good.two
  have hn0 : n ≠ 0 := by rintro rfl; exact hn (dvd_zero _)
  unfold nativeWithExp
  obtain ⟨m, k, h1, h2, h3, h4⟩ := Numeral.stripZeros_spec (R := R) hr n 0 (by omega)
  have hk : k ≤ 2 := by
    by_contra hc
    apply hn
    rw [h2]
    exact Dvd.dvd.mul_left (pow_dvd_pow _ (by omega)) _
  obtain ⟨s, h5, ds, rfl, h6, h7, h8, _⟩ := Numeral.toStringNative_spec (R := R) hr m
  obtain ⟨e, g1, es, rfl, g2, g3, g4, _⟩ := Numeral.toStringNative_spec (R := R) hr k
  have hel : 1 ≤ es.length := List.length_pos_iff.2 g4
  have hb : buildExpr R (ds.map R.getChar) (0 + (k : ℕ)) = some ((ds ++ List.replicate k 0).map R.getChar) := by
    unfold buildExpr buildExprNat
    rw [if_neg (by omega)]
    by_cases hk0 : k = 0
    · subst hk0; simp
    · rw [if_pos (by omega), if_neg (by omega), show (0 + (k : ℕ) : ℤ).toNat = k by omega, g1]
      simp only [Option.map_some, List.length_map]
      rw [if_neg (by omega)]
      simp
  have hval : Numeral.Spec.positional R.radix (ds ++ List.replicate k 0) = n := by
    rw [Numeral.positional_append_zeros, h7, h2]
  have hdec : Decimal R ((ds ++ List.replicate k 0).map R.getChar) n := by
    rw [← hval]
    refine Decimal.int _ ?_
    intro d hd
    rcases List.mem_append.1 hd with hd | hd
    · exact h6 d hd
    · have := List.eq_of_mem_replicate hd; omega
  refine ⟨_, ?_, hdec⟩
  rw [h1]; simp only [Option.bind_some, h5, hb]

/-! ### digits -/

theorem halfLoop_spec {half : Nat} : ∀ (e num new : Nat),
    (halfLoop half e num new).1 * half ^ ((halfLoop half e num new).2.2 - new) = num ∧
      new ≤ (halfLoop half e num new).2.2 ∧
      (halfLoop half e num new).2.1 + ((halfLoop half e num new).2.2 - new) = e := by
  intro e
  induction e with
  | zero => intro num new; simp [halfLoop]
  | succ e ih =>
    intro num new
    rw [halfLoop]
    by_cases hc : num % half = 0
    · rw [if_pos hc]
      obtain ⟨i1, i2, i3⟩ := ih (num / half) (new + 1)
      refine ⟨?_, by omega, by omega⟩
      rw [show (halfLoop half e (num / half) (new + 1)).2.2 - new = (halfLoop half e (num / half) (new + 1)).2.2 - (new + 1) + 1 by omega,
        pow_succ, ← Nat.mul_assoc, i1]
      exact Nat.div_mul_cancel (Nat.dvd_of_mod_eq_zero hc)
    · rw [if_neg hc]
      simp

theorem evenDigits_spec {r n : Nat} (hr : 2 ≤ r) (he : r % 2 = 0) (e : ℤ) :
    ((evenDigits r n e).1 : ℚ) * (r : ℚ) ^ (evenDigits r n e).2 = n * 2 ^ e := by
  have hr2 : (r : ℚ) = 2 * (r / 2 : Nat) := by exact_mod_cast (by omega : r = 2 * (r / 2))
  have hh : ((r / 2 : Nat) : ℚ) ≠ 0 := by
    have : r / 2 ≠ 0 := by omega
    exact_mod_cast this
  unfold evenDigits
  by_cases h1 : e < 0
  · rw [if_pos h1]
    dsimp only
    obtain ⟨k, hk⟩ : ∃ k : ℕ, e = -(k : ℤ) := ⟨e.natAbs, by omega⟩
    rw [hk, Int.natAbs_neg, Int.natAbs_natCast, zpow_neg, zpow_neg, zpow_natCast, zpow_natCast, hr2, mul_pow]
    push_cast
    have h2 : ((2 : ℚ) ^ k) ≠ 0 := by positivity
    have h3 := pow_ne_zero k hh
    rw [mul_inv, mul_assoc, mul_comm ((2 ^ k)⁻¹ : ℚ), ← mul_assoc (((r / 2 : Nat) : ℚ) ^ k), mul_inv_cancel₀ h3, one_mul]
  · rw [if_neg h1]
    by_cases h2 : 0 < e
    · rw [if_pos h2]
      dsimp only
      obtain ⟨k, hk⟩ : ∃ k : ℕ, e = (k : ℤ) := ⟨e.natAbs, by omega⟩
      rw [hk, Int.toNat_natCast, zpow_natCast, zpow_natCast, Nat.shiftLeft_eq]
      obtain ⟨s1, s2, s3⟩ := halfLoop_spec (half := r / 2) k n 0
      rw [Nat.sub_zero] at s1 s3
      generalize halfLoop (r / 2) k n 0 = h at *
      rw [← s3, ← s1, hr2]
      push_cast
      rw [mul_pow, pow_add]
      ring
    · have : e = 0 := by omega
      subst this
      simp

theorem precision_pos (h : Agrees I f) {v : Nat} (hv : Plain f v) (h0 : v ≠ 0) : 0 < getPrecision I v := by
  rcases Nat.eq_zero_or_pos (getPrecision I v) with hz | hp
  · have := decompose_eq h hv.2
    rw [hz, Nat.cast_zero, zero_mul, magnitude_one h _ hv.1] at this
    have ho : (one I : ℚ) ≠ 0 := by exact_mod_cast (one_pos h).ne'
    rw [eq_comm, div_eq_zero_iff] at this
    rcases this with this | this
    · have h2 := units_pos (p := f.p) h0
      have : units f.p v = 0 := by exact_mod_cast this
      omega
    · exact absurd this ho
  · exact hp

theorem digitsText_spec (h : Agrees I f) (hR : Usable R) {w : Nat} (hw : 0 < w) {v : Nat} (hv : Plain f v) (h0 : v ≠ 0)
    (hodd : R.radix % 2 = 1 → getExponent I v < 0 → ¬ R.radix ^ 3 ∣ getPrecision I v) {s : List Nat}
    (hs : digitsText I R w v = .done s) :
    ∃ q, Reads R s q ∧ Next f q v ∧ (R.radix % 2 = 1 → q = magnitude f v) := by
  have hr := hR.good.two
  have hpos := precision_pos h hv h0
  have hdec := decompose_eq h hv.2
  have hrq : (0 : ℚ) < R.radix := by exact_mod_cast (by omega : 0 < R.radix)
  have htext : ∀ {o : Option (List Nat)}, text o = .done s → o = some s := by
    intro o ho
    cases o with
    | none => cases ho
    | some x => simp only [text, Outcome.done.injEq] at ho; rw [ho]
  unfold digitsText at hs
  dsimp only at hs
  by_cases he : R.radix % 2 = 0
  · rw [if_pos he] at hs
    have hev := evenDigits_spec (n := getPrecision I v) hr he (getExponent I v)
    rw [hdec] at hev
    have hmpos : 0 < magnitude f v := by
      rw [← hdec]; exact mul_pos (by exact_mod_cast hpos) (two_zpow_pos _)
    have hd1 : 1 ≤ (evenDigits R.radix (getPrecision I v) (getExponent I v)).1 := by
      by_contra hc
      have hz : (evenDigits R.radix (getPrecision I v) (getExponent I v)).1 = 0 := by omega
      rw [hz, Nat.cast_zero, zero_mul] at hev
      linarith
    generalize evenDigits R.radix (getPrecision I v) (getExponent I v) = d at *
    split at hs
    · rename_i num exp heq
      have hn := applyThreshold_spec h hr he _ _ hv h0 hd1 hev heq
      have hnum : 0 < num := by
        rcases Nat.eq_zero_or_pos num with hz | hp
        · rw [hz, Nat.cast_zero, zero_mul] at hn
          exact absurd (next_zero h hn) h0
        · exact hp
      obtain ⟨t, t1, t2⟩ := Numeral.toStringWithExp_spec hR.good hR.small hw hnum exp
      have := htext hs
      rw [t1] at this
      cases this
      exact ⟨_, t2, hn, fun ho => by omega⟩
    · cases hs
    · cases hs
  · rw [if_neg he] at hs
    by_cases hneg : getExponent I v < 0
    · rw [if_pos hneg] at hs
      obtain ⟨a, a1, a2⟩ := nativeWithExp_decimal hR (hodd (by omega) hneg)
      obtain ⟨b, b1, b2⟩ := Numeral.toStringBig_spec (R := R) hw hr hR.small (1 <<< (getExponent I v).natAbs)
      have := htext hs
      rw [a1] at this
      simp only [Option.bind_some, b1, Option.map_some, Option.some.injEq] at this
      subst this
      have hden : ((1 <<< (getExponent I v).natAbs : Nat) : ℚ) = 2 ^ (getExponent I v).natAbs := by
        rw [Nat.shiftLeft_eq]; push_cast; ring
      have hb := Numeral.numeral_decimal b2
      rw [hden] at hb
      have e : (getPrecision I v : ℚ) / 2 ^ (getExponent I v).natAbs = magnitude f v := by
        rw [← hdec]
        obtain ⟨k, hk⟩ : ∃ k : ℕ, getExponent I v = -(k : ℤ) := ⟨(getExponent I v).natAbs, by omega⟩
        rw [hk, zpow_neg, zpow_natCast, Int.natAbs_neg, Int.natAbs_natCast, div_eq_mul_inv]
      refine ⟨magnitude f v, ?_, next_self hv, fun _ => rfl⟩
      rw [← e, List.append_assoc]
      exact .fraction (.div a2 (.decimal hb) (by positivity))
    · rw [if_neg hneg] at hs
      obtain ⟨t, t1, t2⟩ := Numeral.toStringWithExp_spec hR.good hR.small hw (num := getPrecision I v <<< (getExponent I v).toNat)
        (by rw [Nat.shiftLeft_eq]; exact Nat.mul_pos hpos (Nat.two_pow_pos _)) 0
      have := htext hs
      rw [t1] at this
      cases this
      have e : ((getPrecision I v <<< (getExponent I v).toNat : Nat) : ℚ) * (R.radix : ℚ) ^ (0 : ℤ) = magnitude f v := by
        rw [← hdec]
        obtain ⟨k, hk⟩ : ∃ k : ℕ, getExponent I v = (k : ℤ) := ⟨(getExponent I v).natAbs, by omega⟩
        rw [hk, Int.toNat_natCast, Nat.shiftLeft_eq, zpow_natCast, zpow_zero]; push_cast; ring
      rw [e] at t2
      exact ⟨_, t2, next_self hv, fun _ => rfl⟩

/-! ### everything -/

/-- The fraction printed in place of `n/d`. -/
def Garbled (R : Rep) (f : Format) (v : Nat) (s : List Nat) : Prop :=
  ∃ n d d' c k : Nat, 0 < n ∧ n < 2 ^ 7 ∧ d ≤ 2 ^ 17 ∧ Rounded f (n / d) v ∧ d * c = d' * R.radix ^ k ∧ 0 < k ∧
    (d' * c % 2 ^ 64 = 0 ∨ Reads R s (n / (d' * c % 2 ^ 64 : Nat)))

theorem toDivide_some (h : Agrees I f) {v m d : Nat} (hv : Plain f v) (hd : toDivide I v = .done (some (m, d))) :
    (m = intPart I v ∧ d = 1 ∧ fracPart I v = 0) ∨
      ∃ k, k < 2 ^ 7 ∧ 0 < k ∧ d ≤ 2 ^ 17 ∧ 0 < d ∧ units f.p v < one I ∧ m = ofNat I k ∧ Rounded f (k / d) v := by
  unfold toDivide at hd
  dsimp only at hd
  split at hd
  · simp only [Outcome.done.injEq, Option.some.injEq, Prod.mk.injEq] at hd
    rename_i hz
    exact Or.inl ⟨hd.1.symm, hd.2.symm, hz⟩
  · rename_i hnz
    obtain ⟨k, k1, k2, k3, k4, k5, kc, k6, k7⟩ := divideLoop_some h hv hnz _ _ (by norm_num) (by norm_num) hd
    exact Or.inr ⟨k, k1, k2, k3, k4, k5, k6, fdiv_rounded h (by omega) (by omega) k4 k7 hv⟩

theorem toSize_done {m n : Nat} (hs : toSize I m = .done n) : n = units I.bit m / one I := by
  unfold toSize at hs
  split at hs
  · cases hs
  · simp only [Outcome.done.injEq] at hs; exact hs.symm

theorem le_ofNat (h : Agrees I f) {c n : Nat} (hi : c ≤ infinity I) (hc : units f.p c ≤ n * one I) : c ≤ ofNat I n := by
  unfold ofNat
  exact nearest_ge h (by norm_num) (by rw [Nat.one_mul]; exact hc) hi

theorem toText_spec (h : Agrees I f) (hR : Usable R) (h128 : 128 ≤ R.radix ^ 3) {w : Nat} (hw : 0 < w) {v : Nat} (hv : Plain f v) (h0 : v ≠ 0)
    (hodd : R.radix % 2 = 1 → getExponent I v < 0 → ¬ R.radix ^ 3 ∣ getPrecision I v) {s : List Nat}
    (hs : toText I R w v = .done s) :
    (∃ q, Reads R s q ∧ Next f q v ∧ (R.radix % 2 = 1 → 1 ≤ magnitude f v → q = magnitude f v)) ∨
      (magnitude f v < 1 ∧ Garbled R f v s) := by
  have ho := one_pos h
  have hoq : (0 : ℚ) < one I := by exact_mod_cast ho
  have htext : ∀ {o : Option (List Nat)}, text o = .done s → o = some s := by
    intro o ho
    cases o with
    | none => cases ho
    | some x => simp only [text, Outcome.done.injEq] at ho; rw [ho]
  have digits : digitsText I R w v = .done s → (∃ q, Reads R s q ∧ Next f q v ∧ (R.radix % 2 = 1 → 1 ≤ magnitude f v → q = magnitude f v)) ∨
      (magnitude f v < 1 ∧ Garbled R f v s) := by
    intro hd
    obtain ⟨q, q1, q2, q3⟩ := digitsText_spec h hR hw hv h0 hodd hd
    exact Or.inl ⟨q, q1, q2, fun a _ => q3 a⟩
  unfold toText at hs
  split at hs
  · cases hs
  · cases hs
  · exact digits hs
  · rename_i m d hdiv
    have hcase := toDivide_some h hv hdiv
    by_cases hd1 : d ≠ 1
    · rw [if_pos hd1] at hs
      rcases hcase with ⟨_, e, _⟩ | ⟨k, k1, k2, k3, k4, k5, rfl, k7⟩
      · exact absurd e hd1
      · have hk := ofNat_eq h (n := k) (by omega)
        have hlt1 : magnitude f v < 1 := by rw [magnitude_one h _ hv.1, div_lt_one hoq]; exact_mod_cast k5
        have hkp : Plain f (ofNat I k) := (plain_iff h _).2 (by rw [← infinity_eq h]; exact hk.2)
        have hnd : ¬ R.radix ^ 3 ∣ k := fun hc => by have := Nat.le_of_dvd k2 hc; omega
        obtain ⟨a, a1, a2⟩ := nativeWithExp_decimal hR hnd
        obtain ⟨d', c, j, c1, c2, c3, c4⟩ := Numeral.denominator_complement_correct hR.primes d k4 0
        rw [c1] at hs
        dsimp only at hs
        by_cases hd' : d' ≠ 1
        · rw [if_pos hd'] at hs
          have hle : ofNat I k ≤ ofNat I (2 ^ 64 - 1) := le_ofNat h hk.2.le (by rw [hk.1]; exact Nat.mul_le_mul_right _ (by omega))
          rw [if_pos hle] at hs
          cases hts : toSize I (ofNat I k) with
          | undefined => rw [hts] at hs; cases hs
          | spins => rw [hts] at hs; cases hs
          | done n =>
            rw [hts] at hs
            dsimp only at hs
            have hn := toSize_done hts
            rw [h.bit, hk.1, Nat.mul_div_cancel _ ho] at hn
            subst hn
            rw [a1] at hs
            obtain ⟨b, b1, b2⟩ := Numeral.toStringNative_spec (R := R) hR.good.two (d' * c % 2 ^ 64)
            have hs' := htext hs
            simp only [Option.bind_some, b1, Option.map_some, Option.some.injEq] at hs'
            have hreads : d' * c % 2 ^ 64 ≠ 0 → Reads R s (n / (d' * c % 2 ^ 64 : Nat)) := by
              intro hne
              rw [← hs', List.append_assoc]
              exact .fraction (.div a2 (.decimal (Numeral.numeral_decimal b2)) (by exact_mod_cast hne))
            by_cases hj : j = 0
            · left
              subst hj
              rw [pow_zero, Nat.mul_one] at c2
              have hdd : d' = d := Nat.dvd_antisymm c4 ⟨c, c2.symm⟩
              subst hdd
              have hc : c = 1 := by
                have : d' * c = d' * 1 := by rw [c2, Nat.mul_one]
                exact Nat.eq_of_mul_eq_mul_left k4 this
              subst hc
              have hm : d' * 1 % 2 ^ 64 = d' := by rw [Nat.mul_one]; exact Nat.mod_eq_of_lt (by omega)
              rw [hm] at hreads
              exact ⟨_, hreads k4.ne', nearest_next k7.1, fun _ hge => by linarith⟩
            · right
              refine ⟨hlt1, n, d, d', c, j, k2, k1, k3, k7, c2, by omega, ?_⟩
              by_cases hz : d' * c % 2 ^ 64 = 0
              · exact Or.inl hz
              · exact Or.inr (hreads hz)
        · rw [if_neg hd'] at hs
          exact digits hs
    · rw [if_neg hd1] at hs
      by_cases hle : m ≤ ofNat I (2 ^ 64 - 1)
      · rw [if_pos hle] at hs
        cases hts : toSize I m with
        | undefined => rw [hts] at hs; cases hs
        | spins => rw [hts] at hs; cases hs
        | done n =>
          rw [hts] at hs
          dsimp only at hs
          have hn := toSize_done hts
          obtain ⟨a, a1, a2⟩ := nativeWithExp_reads hR n
          have hs' := htext hs
          rw [a1] at hs'
          cases hs'
          left
          rcases hcase with ⟨e1, e2, e3⟩ | ⟨k, k1, k2, k3, k4, k5, e6, k7⟩
          · have hm : (n : ℚ) = magnitude f v := by
              rw [hn, e1, h.bit, (parts_eq h v).1, Nat.mul_div_cancel _ ho, magnitude_one h _ hv.1, eq_div_iff hoq.ne']
              rw [fract_zero_iff h] at e3
              exact_mod_cast Nat.div_mul_cancel (Nat.dvd_of_mod_eq_zero e3)
            exact ⟨_, a2, by rw [hm]; exact next_self hv, fun _ _ => hm⟩
          · have hd : d = 1 := by omega
            subst hd
            have hk := ofNat_eq h (n := k) (by omega)
            rw [e6, h.bit, hk.1, Nat.mul_div_cancel _ ho] at hn
            subst hn
            rw [Nat.cast_one, div_one] at k7
            have hlt1 : magnitude f v < 1 := by rw [magnitude_one h _ hv.1, div_lt_one hoq]; exact_mod_cast k5
            exact ⟨_, a2, nearest_next k7.1, fun _ hge => by linarith⟩
      · rw [if_neg hle] at hs
        exact digits hs

/-- Integers up to 64 bits print exactly. -/
theorem toText_integer (h : Agrees I f) (hR : Usable R) {w v n : Nat} (hv : Plain f v) (hm : magnitude f v = n) (hn : n < 2 ^ 64) :
    ∃ s, toText I R w v = .done s ∧ Reads R s n := by
  have ho := one_pos h
  have hoq : (0 : ℚ) < one I := by exact_mod_cast ho
  have hu : units f.p v = n * one I := by
    rw [magnitude_one h _ hv.1, div_eq_iff hoq.ne'] at hm
    exact_mod_cast hm
  have hz : fracPart I v = 0 := by rw [fract_zero_iff h, hu, Nat.mul_mod_left]
  have hi : intPart I v = v := units_inj (p := f.p) (by rw [(parts_eq h v).1, hu, Nat.mul_div_cancel _ ho])
  have hvi : v < infinity I := by rw [infinity_eq h]; exact (plain_iff h v).1 hv
  have hts : toSize I v = .done n := by
    unfold toSize
    rw [h.bit, hu, Nat.mul_div_cancel _ ho, if_neg (by omega)]
  obtain ⟨a, a1, a2⟩ := nativeWithExp_reads hR n
  refine ⟨a, ?_, a2⟩
  unfold toText toDivide
  dsimp only
  rw [if_pos hz, hi]
  dsimp only
  rw [if_neg (by simp), if_pos (le_ofNat h hvi.le (by rw [hu]; exact Nat.mul_le_mul_right _ (by omega))), hts]
  dsimp only
  rw [a1]
  rfl

end ELC.FloatText
