import Verif.FloatText.Log
import Verif.Float.Round
import Verif.Numeral.Props
/-! The number a text denotes and the number it was made from. -/
namespace ELC.FloatText

open ELC.Float ELC.Float.Spec
open ELC.Bigfloat (UFrac)
open ELC.Bigfloat.Spec (uvalue)

variable {I : Info} {f : Format}

/-- `v` is one of the two numbers next to `q`. -/
def Next (f : Format) (q : ℚ) (v : Nat) : Prop := Down f q v ∨ Up f q v

theorem next_self {v : Nat} (hv : Plain f v) : Next f (magnitude f v) v := Or.inl (down_self hv rfl)

theorem next_zero (h : Agrees I f) {v : Nat} (hn : Next f 0 v) : v = 0 := by
  have hp0 : Plain f 0 := (plain_iff h 0).2 (by have := (plain_iff h v).1 (hn.elim (fun x => x.1) (fun x => x.1)); omega)
  have hm0 : magnitude f 0 = 0 := by rw [magnitude_one h _ hp0.1, units_zero]; simp
  rcases hn with hn | hn
  · have := (magnitude_le_magnitude h hn.1.1 hp0.1).1 (by rw [hm0]; exact hn.2.1)
    omega
  · have := (magnitude_le_magnitude h hn.1.1 hp0.1).1 (hn.2.2 0 hp0 (by rw [hm0]))
    omega

/-- A number with enough digits and less than one unit of its last digit away. -/
theorem next_of_close (h : Agrees I f) {v : Nat} (hv : Plain f v) {num : Nat} {X : ℚ} (hnum : 2 ^ (f.p + 1) ≤ num)
    (hX : 0 < X) (hc : |(num : ℚ) * X - magnitude f v| < X) : Next f (num * X) v := by
  have hc1 := (abs_lt.1 hc).1
  have hc2 := (abs_lt.1 hc).2
  have hnq : ((2 ^ (f.p + 1) : Nat) : ℚ) ≤ num := by exact_mod_cast hnum
  have hnX : ((2 ^ (f.p + 1) : Nat) : ℚ) * X ≤ num * X := mul_le_mul_of_nonneg_right hnq hX.le
  have hu := two_zpow_pos (-(Kof f : ℤ))
  rcases le_total (magnitude f v) (num * X) with hle | hle
  · left
    refine ⟨hv, hle, fun d' hd' hd'' => ?_⟩
    by_contra hcon
    have hlt : v < d' := by
      by_contra hge
      exact hcon ((magnitude_le_magnitude h hd'.1 hv.1).2 (by omega))
    obtain ⟨m, m1, m2⟩ := units_form f.p v
    set S : ℚ := ((2 ^ (v / 2 ^ f.p - 1) : Nat) : ℚ) * 2 ^ (-(Kof f : ℤ)) with hS
    have e1 : magnitude f v = m * S := by rw [magnitude_plain h hv.1, m2, hS]; push_cast; ring
    have e2 : magnitude f v + S ≤ magnitude f d' := by
      rw [magnitude_plain h hv.1, magnitude_plain h hd'.1, hS, ← add_mul]
      apply mul_le_mul_of_nonneg_right _ hu.le
      have := units_le (p := f.p) (show v + 1 ≤ d' by omega)
      rw [units_succ] at this
      exact_mod_cast this
    have hSp : 0 < S := mul_pos (by exact_mod_cast Nat.two_pow_pos _) hu
    have hm : (m : ℚ) + 1 ≤ ((2 ^ (f.p + 1) : Nat) : ℚ) := by exact_mod_cast m1
    have hT : (2 : ℚ) ≤ ((2 ^ (f.p + 1) : Nat) : ℚ) := by
      have : 2 ≤ 2 ^ (f.p + 1) := by rw [pow_succ]; have := Nat.two_pow_pos f.p; omega
      exact_mod_cast this
    -- `(T-1)X < m S ≤ (T-1)S`
    have h3 : (((2 ^ (f.p + 1) : Nat) : ℚ) - 1) * X < (((2 ^ (f.p + 1) : Nat) : ℚ) - 1) * S := by
      calc (((2 ^ (f.p + 1) : Nat) : ℚ) - 1) * X < m * S := by rw [← e1]; linarith
        _ ≤ (((2 ^ (f.p + 1) : Nat) : ℚ) - 1) * S := mul_le_mul_of_nonneg_right (by linarith) hSp.le
    have h4 : X < S := lt_of_mul_lt_mul_left h3 (by linarith)
    linarith
  · right
    refine ⟨hv, hle, fun d' hd' hd'' => ?_⟩
    by_contra hcon
    have hlt : d' < v := by
      by_contra hge
      exact hcon ((magnitude_le_magnitude h hv.1 hd'.1).2 (by omega))
    obtain ⟨u, rfl⟩ : ∃ u, v = u + 1 := ⟨v - 1, by omega⟩
    have hu1 : u < 2 ^ (f.width - 1) := by have := hv.1; omega
    obtain ⟨m, m1, m2⟩ := units_form f.p u
    set S : ℚ := ((2 ^ (u / 2 ^ f.p - 1) : Nat) : ℚ) * 2 ^ (-(Kof f : ℤ)) with hS
    have e1 : magnitude f u = m * S := by rw [magnitude_plain h hu1, m2, hS]; push_cast; ring
    have e2 : magnitude f (u + 1) = magnitude f u + S := by
      rw [magnitude_plain h hv.1, magnitude_plain h hu1, hS, units_succ, ← add_mul]; push_cast; rfl
    have e3 : magnitude f d' ≤ magnitude f u := (magnitude_le_magnitude h hd'.1 hu1).2 (by omega)
    have hSp : 0 < S := mul_pos (by exact_mod_cast Nat.two_pow_pos _) hu
    have hm : (m : ℚ) + 1 ≤ ((2 ^ (f.p + 1) : Nat) : ℚ) := by exact_mod_cast m1
    have hT : (0 : ℚ) < ((2 ^ (f.p + 1) : Nat) : ℚ) := by exact_mod_cast Nat.two_pow_pos _
    have h3 : ((2 ^ (f.p + 1) : Nat) : ℚ) * X < ((2 ^ (f.p + 1) : Nat) : ℚ) * S := by
      have : (m : ℚ) * S < ((2 ^ (f.p + 1) : Nat) : ℚ) * S := mul_lt_mul_of_pos_right (by linarith) hSp
      linarith
    have h4 : X < S := lt_of_mul_lt_mul_left h3 hT.le
    linarith

/-- What `make_float` delivers, if not zero, is rounded down. -/
theorem makeFloat_next (h : Agrees I f) {n : Nat} (hlt : n < 2 ^ f.width) {e : ℤ} {v : Nat} (h0 : v ≠ 0)
    (hv : makeFloat I n e = .done v) : Down f (n * 2 ^ e) v := by
  by_cases hn : n = 0
  · subst hn
    rw [makeFloat_zero h] at hv
    split at hv
    · cases hv
    · simp only [Outcome.done.injEq] at hv; omega
  · by_cases h1 : (n : ℚ) * 2 ^ e < 2 ^ (2 - f.bias - f.width : ℤ)
    · rw [makeFloat_undefined h hn hlt h1] at hv; cases hv
    · by_cases h2 : (2 : ℚ) ^ (f.bias + 1 : ℤ) ≤ n * 2 ^ e
      · rw [makeFloat_overflow h hlt h2] at hv
        simp only [Outcome.done.injEq] at hv; omega
      · obtain ⟨r, h3, h4⟩ := makeFloat_down h hlt (not_lt.1 h1) (not_le.1 h2)
        rw [h3] at hv
        simp only [Outcome.done.injEq] at hv
        rw [← hv]; exact h4

/-- What a fraction converts to, if not zero, is next to it. -/
theorem toFloat_next (h : Agrees I f) {a : UFrac} (ha : a.den ≠ 0) {v : Nat} (h0 : v ≠ 0) (hv : toFloat I a = .done v) :
    Next f (a.num / a.den) v := by
  obtain ⟨N, D⟩ := a
  dsimp only at ha ⊢
  have hr := h.room
  by_cases hN : N = 0
  · subst hN
    rw [toFloat_zero h ha] at hv
    have := makeFloat_next h (Nat.two_pow_pos _) h0 hv
    left
    simpa using this
  · obtain ⟨y, g, h1, h2, ⟨n, e, h3, h4, h5, h6, h7⟩ | ⟨h3, h4, h5, h6⟩⟩ := toFloat_steps h hN ha
    · rw [h3] at hv
      have hd := makeFloat_next h h4 h0 hv
      rw [h6] at hd
      left
      rcases h7 with h7 | h7
      · rw [← h7]; exact hd
      · exact down_grid h (Nat.le_trans (Nat.pow_le_pow_right (by norm_num) (by omega)) h7) h1 h2 hd
    · rw [h6] at hv
      by_cases hy : y + 1 = 2 ^ f.width
      · rw [hy, Nat.mod_self] at hv
        have hd := makeFloat_next h (Nat.two_pow_pos _) h0 hv
        rw [Nat.cast_zero, zero_mul] at hd
        have := next_zero h (Or.inl hd)
        omega
      · rw [Nat.mod_eq_of_lt (by omega)] at hv
        have hd := makeFloat_next h (by omega) h0 hv
        push_cast at hd
        rcases down_grid_up h (Nat.le_trans (Nat.pow_le_pow_right (by norm_num) (by omega)) h4) h3 h2 hd with h7 | h7
        · exact Or.inl h7
        · exact Or.inr h7.1

/-! ### rounding digits -/

theorem roundDigit_err {r num : Nat} (hr : 2 ≤ r) (he : r % 2 = 0) :
    |((roundDigit r num : Nat) : ℚ) * r - num| ≤ r / 2 := by
  have hd := Nat.div_add_mod num r
  have hm := Nat.mod_lt num (show 0 < r by omega)
  have hr2 : ((r / 2 : Nat) : ℚ) * 2 = r := by exact_mod_cast (by omega : r / 2 * 2 = r)
  have hdq : (num : ℚ) = r * (num / r : Nat) + (num % r : Nat) := by exact_mod_cast hd.symm
  have hmq : ((num % r : Nat) : ℚ) < r := by exact_mod_cast hm
  have hm0 : (0 : ℚ) ≤ ((num % r : Nat) : ℚ) := by positivity
  unfold roundDigit
  split
  · rename_i hc
    have hcq : ((r / 2 : Nat) : ℚ) ≤ (num % r : Nat) := by exact_mod_cast hc
    rw [abs_le]
    rw [Nat.cast_add, Nat.cast_one]
    constructor <;> linarith
  · rename_i hc
    have hcq : ((num % r : Nat) : ℚ) ≤ (r / 2 : Nat) := by exact_mod_cast (by omega : num % r ≤ r / 2)
    rw [abs_le]
    constructor <;> linarith

theorem roundDigit_lt {r num : Nat} (hr : 2 ≤ r) (hn : 3 ≤ num) : roundDigit r num < num := by
  have : num / r ≤ num / 2 := Nat.div_le_div_left hr (by norm_num)
  unfold roundDigit
  split <;> omega

/-- What holds of a number on its way to the digits of `x`. -/
def Good' (T r : Nat) (x : ℚ) (num : Nat) (exp : ℤ) : Prop :=
  (num : ℚ) * (r : ℚ) ^ exp = x ∨ (T ≤ num ∧ |(num : ℚ) * (r : ℚ) ^ exp - x| < (r : ℚ) ^ exp)

theorem roundLoop_spec {T r : Nat} (hr : 2 ≤ r) (he : r % 2 = 0) (hT : 2 ≤ T) {x : ℚ} : ∀ (fuel num : Nat) (exp : ℤ),
    num < fuel → Good' T r x num exp →
    ∃ num' exp', roundLoop r (T * r) fuel num exp = some (num', exp') ∧ Good' T r x num' exp' := by
  have hrq : (0 : ℚ) < r := by exact_mod_cast (by omega : 0 < r)
  intro fuel
  induction fuel with
  | zero => intro num exp h; omega
  | succ fuel ih =>
    intro num exp hf hg
    rw [roundLoop]
    by_cases hc : T * r < num
    · rw [if_pos hc]
      have h4 : 2 * 2 ≤ T * r := Nat.mul_le_mul hT hr
      have hlt := roundDigit_lt (r := r) (num := num) hr (by omega)
      apply ih _ _ (by omega)
      right
      constructor
      · have : T ≤ num / r := (Nat.le_div_iff_mul_le (by omega)).2 hc.le
        unfold roundDigit; split <;> omega
      · have hp : (0 : ℚ) < (r : ℚ) ^ exp := zpow_pos hrq _
        have herr : |(num : ℚ) * (r : ℚ) ^ exp - x| < (r : ℚ) ^ exp := by
          rcases hg with hg | hg
          · rw [hg]; simpa using hp
          · exact hg.2
        have h1 := roundDigit_err (num := num) hr he
        have hr2 : (2 : ℚ) ≤ r := by exact_mod_cast hr
        rw [zpow_add_one₀ hrq.ne', show ((roundDigit r num : Nat) : ℚ) * ((r : ℚ) ^ exp * r) - x
          = (((roundDigit r num : Nat) : ℚ) * r - num) * (r : ℚ) ^ exp + ((num : ℚ) * (r : ℚ) ^ exp - x) by ring]
        calc _ ≤ |(((roundDigit r num : Nat) : ℚ) * r - num) * (r : ℚ) ^ exp| + |(num : ℚ) * (r : ℚ) ^ exp - x| := abs_add_le _ _
          _ < r / 2 * (r : ℚ) ^ exp + (r : ℚ) ^ exp := by
              rw [abs_mul, abs_of_pos hp]
              exact add_lt_add_of_le_of_lt (mul_le_mul_of_nonneg_right h1 hp.le) herr
          _ ≤ (r : ℚ) ^ exp * r := by nlinarith
    · rw [if_neg hc]
      exact ⟨num, exp, rfl, hg⟩

theorem dropDigits_spec {T r L : Nat} (hr : 2 ≤ r) (hL : T ≤ r ^ L) {num : Nat} (hn : 1 ≤ num) (exp : ℤ) :
    ∃ num' exp', dropDigits L r num exp = some (num', exp') ∧ Good' T r ((num : ℚ) * (r : ℚ) ^ exp) num' exp' := by
  have hrq : (0 : ℚ) < r := by exact_mod_cast (by omega : 0 < r)
  obtain ⟨k, h1, h2, h3⟩ := integerLog_spec hr hn
  unfold dropDigits
  rw [h1]
  change ∃ num' exp', some (if 0 < (k : ℤ) - L then (num / r ^ ((k : ℤ) - L).toNat, exp + ((k : ℤ) - L)) else (num, exp))
    = some (num', exp') ∧ _
  by_cases hc : 0 < (k : ℤ) - L
  · rw [if_pos hc]
    obtain ⟨j, hj⟩ : ∃ j : Nat, k = L + j := ⟨k - L, by omega⟩
    have hjt : ((k : ℤ) - L).toNat = j := by omega
    refine ⟨_, _, rfl, Or.inr ?_⟩
    rw [hjt, show (k : ℤ) - L = j by omega]
    have hpj : 0 < r ^ j := Nat.pow_pos (by omega)
    constructor
    · rw [Nat.le_div_iff_mul_le hpj]
      calc T * r ^ j ≤ r ^ L * r ^ j := Nat.mul_le_mul_right _ hL
        _ = r ^ k := by rw [hj, pow_add]
        _ ≤ num := h2
    · have hp : (0 : ℚ) < (r : ℚ) ^ exp := zpow_pos hrq _
      have hd := Nat.div_add_mod num (r ^ j)
      have hm := Nat.mod_lt num hpj
      have hdq : (num : ℚ) = (r : ℚ) ^ j * (num / r ^ j : Nat) + (num % r ^ j : Nat) := by exact_mod_cast hd.symm
      have hmq : ((num % r ^ j : Nat) : ℚ) < (r : ℚ) ^ j := by exact_mod_cast hm
      have hm0 : (0 : ℚ) ≤ ((num % r ^ j : Nat) : ℚ) := by positivity
      rw [zpow_add₀ hrq.ne', zpow_natCast]
      rw [show ((num / r ^ j : Nat) : ℚ) * ((r : ℚ) ^ exp * (r : ℚ) ^ j) - num * (r : ℚ) ^ exp
        = -((num % r ^ j : Nat) : ℚ) * (r : ℚ) ^ exp by rw [hdq]; ring]
      rw [abs_mul, abs_neg, abs_of_nonneg hm0, abs_of_pos hp, mul_comm ((r : ℚ) ^ exp)]
      exact mul_lt_mul_of_pos_right hmq hp
  · rw [if_neg hc]
    exact ⟨_, _, rfl, Or.inl rfl⟩

theorem ceilLog_spec {r n : Nat} (hr : 2 ≤ r) : ∀ fuel L, n ≤ 2 ^ (L + fuel) → n ≤ r ^ ceilLog r n fuel L := by
  intro fuel
  induction fuel with
  | zero => intro L h; exact Nat.le_trans h (Nat.pow_le_pow_left hr _)
  | succ fuel ih =>
    intro L h
    rw [ceilLog]
    split
    · assumption
    · exact ih (L + 1) (by rw [show L + 1 + fuel = L + (fuel + 1) by omega]; exact h)

theorem digitLimit_spec (h : Agrees I f) {r : Nat} (hr : 2 ≤ r) : 2 ^ (f.p + 1) ≤ r ^ digitLimit I r := by
  have := ceilLog_spec (n := 2 ^ I.width - 1) hr I.width 0 (by rw [Nat.zero_add]; exact Nat.sub_le _ _)
  refine Nat.le_trans ?_ this
  have hroom := h.room
  rw [h.width]
  have : 2 ^ (f.p + 1 + 1) ≤ 2 ^ f.width := Nat.pow_le_pow_right (by norm_num) (by omega)
  have h1 := Nat.two_pow_pos (f.p + 1)
  rw [pow_succ] at this
  omega

/-- Shortening keeps the number next to the text. -/
theorem shortenLoop_spec (h : Agrees I f) {r : Nat} (hr : 2 ≤ r) {v : Nat} (h0 : v ≠ 0) : ∀ (fuel num : Nat) (exp : ℤ)
    (pows : UFrac) (bnum : Nat) (bexp : ℤ) (n' : Nat) (e' : ℤ),
    pows.den ≠ 0 → uvalue pows = (r : ℚ) ^ exp → Next f ((num : ℚ) * (r : ℚ) ^ exp) v → Next f ((bnum : ℚ) * (r : ℚ) ^ bexp) v →
    shortenLoop I r v fuel num exp pows bnum bexp = .done (n', e') → Next f ((n' : ℚ) * (r : ℚ) ^ e') v := by
  have hrq : (0 : ℚ) < r := by exact_mod_cast (by omega : 0 < r)
  intro fuel
  induction fuel with
  | zero => intro _ _ _ _ _ _ _ _ _ _ _ hs; cases hs
  | succ fuel ih =>
    intro num exp pows bnum bexp n' e' hd hp hn hb hs
    rw [shortenLoop] at hs
    have hof : Bigfloat.Spec.Finite (UFrac.ofNat r) := by simp [Bigfloat.Spec.Finite, UFrac.ofNat]
    have hofv : ∀ k, uvalue (UFrac.ofNat k) = k := by intro k; simp [uvalue, UFrac.ofNat]
    have hoff : ∀ k, Bigfloat.Spec.Finite (UFrac.ofNat k) := by intro k; simp [Bigfloat.Spec.Finite, UFrac.ofNat]
    -- the state after zeros were skipped
    obtain ⟨num1, exp1, pows1, bnum1, bexp1, hd1, hp1, hb1, hs⟩ : ∃ (num1 : Nat) (exp1 : ℤ) (pows1 : UFrac) (bnum1 : Nat) (bexp1 : ℤ),
        pows1.den ≠ 0 ∧ uvalue pows1 = (r : ℚ) ^ exp1 ∧ Next f ((bnum1 : ℚ) * (r : ℚ) ^ bexp1) v ∧
        (match toFloat I ((UFrac.ofNat (roundDigit r num1)).mul (pows1.mul (UFrac.ofNat r))) with
          | .done c => if c = v then shortenLoop I r v fuel (roundDigit r num1) (exp1 + 1) (pows1.mul (UFrac.ofNat r))
              (roundDigit r num1) (exp1 + 1) else .done (bnum1, bexp1)
          | .undefined => .undefined
          | .spins => .spins) = Outcome.done (n', e') := by
      by_cases hz : num % r = 0
      · simp only [hz, if_true] at hs
        obtain ⟨m1, m2⟩ := Bigfloat.ufrac_mul_correct pows _ hd (hoff r)
        refine ⟨num / r, exp + 1, pows.mul (UFrac.ofNat r), num / r, exp + 1, m2, ?_, ?_, hs⟩
        · rw [m1, hp, hofv, zpow_add_one₀ hrq.ne']
        · have : num = num / r * r := (Nat.div_mul_cancel (Nat.dvd_of_mod_eq_zero hz)).symm
          have e : ((num / r : Nat) : ℚ) * (r : ℚ) ^ (exp + 1) = (num : ℚ) * (r : ℚ) ^ exp := by
            rw [zpow_add_one₀ hrq.ne']
            have hq : (num : ℚ) = (num / r : Nat) * r := by exact_mod_cast this
            rw [hq]; ring
          rw [e]; exact hn
      · simp only [hz, if_false] at hs
        exact ⟨num, exp, pows, bnum, bexp, hd, hp, hb, hs⟩
    obtain ⟨m1, m2⟩ := Bigfloat.ufrac_mul_correct pows1 _ hd1 (hoff r)
    obtain ⟨m3, m4⟩ := Bigfloat.ufrac_mul_correct (UFrac.ofNat (roundDigit r num1)) _ (hoff _) m2
    have hval : uvalue (pows1.mul (UFrac.ofNat r)) = (r : ℚ) ^ (exp1 + 1) := by
      rw [m1, hp1, hofv, zpow_add_one₀ hrq.ne']
    split at hs
    · rename_i c hc
      by_cases hcv : c = v
      · rw [if_pos hcv] at hs
        subst hcv
        have hnx := toFloat_next h m4 h0 hc
        have e : (((UFrac.ofNat (roundDigit r num1)).mul (pows1.mul (UFrac.ofNat r))).num : ℚ) /
            ((UFrac.ofNat (roundDigit r num1)).mul (pows1.mul (UFrac.ofNat r))).den
            = (roundDigit r num1 : Nat) * (r : ℚ) ^ (exp1 + 1) := by
          have := m3
          rw [hval, hofv] at this
          exact this
        rw [e] at hnx
        exact ih _ _ _ _ _ _ _ m2 hval hnx hnx hs
      · rw [if_neg hcv] at hs
        simp only [Outcome.done.injEq, Prod.mk.injEq] at hs
        obtain ⟨rfl, rfl⟩ := hs
        exact hb1
    · cases hs
    · cases hs

theorem applyThreshold_spec (h : Agrees I f) {r : Nat} (hr : 2 ≤ r) (he : r % 2 = 0) {v num n' : Nat} (exp e' : ℤ)
    (hv : Plain f v) (h0 : v ≠ 0) (hn : 1 ≤ num) (hval : (num : ℚ) * (r : ℚ) ^ exp = magnitude f v)
    (hs : applyThreshold I r num exp v = .done (n', e')) : Next f ((n' : ℚ) * (r : ℚ) ^ e') v := by
  have hrq : (0 : ℚ) < r := by exact_mod_cast (by omega : 0 < r)
  have hT : 2 ≤ 2 ^ (f.p + 1) := by rw [pow_succ]; have := Nat.two_pow_pos f.p; omega
  have next : ∀ {n : Nat} {e : ℤ}, Good' (2 ^ (f.p + 1)) r (magnitude f v) n e → Next f ((n : ℚ) * (r : ℚ) ^ e) v := by
    intro n e hg
    rcases hg with hg | ⟨g1, g2⟩
    · rw [hg]; exact next_self hv
    · exact next_of_close h hv g1 (zpow_pos hrq _) g2
  obtain ⟨n1, e1, d1, d2⟩ := dropDigits_spec (T := 2 ^ (f.p + 1)) hr (digitLimit_spec h hr) hn exp
  rw [hval] at d2
  obtain ⟨n2, e2, l1, l2⟩ := roundLoop_spec hr he hT (n1 + 1) n1 e1 (by omega) d2
  have hb : I.base * 2 = 2 ^ (f.p + 1) := by rw [h.base, pow_succ]
  unfold applyThreshold at hs
  dsimp only at hs
  rw [d1] at hs
  dsimp only at hs
  rw [hb, l1] at hs
  dsimp only at hs
  split at hs
  · have hpow : uvalue (Numeral.powFrac r e2) = (r : ℚ) ^ e2 ∧ Bigfloat.Spec.Finite (Numeral.powFrac r e2) := by
      have hR : Numeral.Spec.Good (Numeral.continuous 0 r []) ∨ True := Or.inr trivial
      have hne : ((r : ℚ) ^ e2.natAbs) ≠ 0 := pow_ne_zero _ hrq.ne'
      unfold Numeral.powFrac
      have hof : ∀ k, uvalue (UFrac.ofNat k) = k := by intro k; simp [uvalue, UFrac.ofNat]
      have hoff : ∀ k, Bigfloat.Spec.Finite (UFrac.ofNat k) := by intro k; simp [Bigfloat.Spec.Finite, UFrac.ofNat]
      split
      · obtain ⟨a1, a2⟩ := Bigfloat.ufrac_div_correct (UFrac.ofNat 1) (UFrac.ofNat (r ^ e2.natAbs)) (hoff _) (hoff _)
          (by rw [hof]; push_cast; exact hne)
        refine ⟨?_, a2⟩
        rw [a1, hof, hof]
        push_cast
        obtain ⟨k, hk⟩ : ∃ k : ℕ, e2 = -(k : ℤ) := ⟨e2.natAbs, by omega⟩
        rw [hk]
        simp
      · refine ⟨?_, hoff _⟩
        rw [hof]
        obtain ⟨k, hk⟩ : ∃ k : ℕ, e2 = (k : ℤ) := ⟨e2.natAbs, by omega⟩
        rw [hk]
        simp
    exact shortenLoop_spec h hr h0 _ _ _ _ _ _ _ _ hpow.2 hpow.1 (next l2) (next l2) hs
  · simp only [Outcome.done.injEq, Prod.mk.injEq] at hs
    obtain ⟨rfl, rfl⟩ := hs
    exact next l2

end ELC.FloatText
