import Verif.Sqrt.Invstep
/-! Runs of the loop of the inverse root: where they end, and where they do not. -/
namespace ELC.Sqrt

open ELC.Float ELC.Float.Spec

variable {I : Info} {f : Format} {v eps : Nat}

theorem abs_units (a b : Nat) : ((a - b + (b - a) : ℕ) : ℝ) = |(a : ℝ) - b| := by
  rcases Nat.le_total a b with h | h
  · rw [Nat.sub_eq_zero_of_le h, Nat.zero_add, Nat.cast_sub h, abs_of_nonpos (by rw [sub_nonpos]; exact_mod_cast h)]
    ring
  · rw [Nat.sub_eq_zero_of_le h, Nat.add_zero, Nat.cast_sub h, abs_of_nonneg (by rw [sub_nonneg]; exact_mod_cast h)]

/-- Two numbers that differ by at most `eps` are seen to. -/
theorem fdist_le (h : Agrees I f) {a b : Nat} (ha : a ≤ infinity I) (hb : b ≤ infinity I) (he : eps ≤ infinity I)
    (hd : |(magnitude f a : ℝ) - magnitude f b| ≤ magnitude f eps) : fdist I a b ≤ eps := by
  unfold fdist
  rw [h.bit]
  apply nearest_le h Nat.one_pos
  have hO : (0 : ℝ) < one I := by exact_mod_cast one_pos h
  have h1 : ((units f.p a - units f.p b + (units f.p b - units f.p a) : ℕ) : ℝ) ≤ ((1 * units f.p eps : ℕ) : ℝ) := by
    rw [abs_units, Nat.one_mul, ← magR h ha, ← magR h hb, ← magR h he, ← sub_mul, abs_mul, abs_of_pos hO]
    exact mul_le_mul_of_nonneg_right hd hO.le
  exact_mod_cast h1

theorem units_succ_le {p d : Nat} (hd : 0 < d) : units p (d + 1) ≤ 2 * units p d := by
  rw [units_sp]
  have : sp p d ≤ units p d := by
    by_cases hn : 2 ^ p ≤ d
    · have h1 := sp_le_units hn
      have h2 := Nat.mul_le_mul_right (sp p d) (Nat.two_pow_pos p)
      omega
    · have h0 : d / 2 ^ p = 0 := Nat.div_eq_of_lt (by omega)
      unfold sp units
      rw [h0, if_pos rfl, Nat.mod_eq_of_lt (by omega)]
      simpa using Nat.succ_le_of_lt hd
  omega

/-- Two numbers seen to differ by at most `eps` differ by at most half as much again. -/
theorem le_fdist (h : Agrees I f) {a b : Nat} (ha : a ≤ infinity I) (hb : b ≤ infinity I) (he : eps < infinity I) (h0 : 0 < eps)
    (hd : fdist I a b ≤ eps) : |(magnitude f a : ℝ) - magnitude f b| ≤ 1.5 * magnitude f eps := by
  unfold fdist at hd
  rw [h.bit] at hd
  obtain ⟨h1, _⟩ := nearest_mid h (x := units f.p a - units f.p b + (units f.p b - units f.p a)) (y := 1) Nat.one_pos (by omega)
  generalize nearest I (units f.p a - units f.p b + (units f.p b - units f.p a)) 1 = r at *
  have h2 := units_le (p := f.p) hd
  have h3 := units_le (p := f.p) (show r + 1 ≤ eps + 1 by omega)
  have h4 := units_succ_le (p := f.p) h0
  have h5 : 2 * (units f.p a - units f.p b + (units f.p b - units f.p a)) ≤ 3 * units f.p eps := by omega
  have h6 : (2 : ℝ) * ((units f.p a - units f.p b + (units f.p b - units f.p a) : ℕ) : ℝ) ≤ 3 * units f.p eps := by exact_mod_cast h5
  have hO : (0 : ℝ) < one I := by exact_mod_cast one_pos h
  rw [abs_units, ← magR h ha, ← magR h hb, ← magR h he.le, ← sub_mul, abs_mul, abs_of_pos hO] at h6
  apply le_of_mul_le_mul_right _ hO
  linarith

section
variable (h : Agrees I f) (hv : v < infinity I) (hn : 2 ^ f.p ≤ v) {s : ℝ} (hs : 0 < s) (hss : s * s = magnitude f v)
include h hv hn hs hss

/-- What is returned: the last step went less than `eps`, and the error before it is about that step. -/
theorem inv_result (he : eps < infinity I) (h0 : 0 < eps) : ∀ fuel num saver o, num < infinity I →
    |(magnitude f num : ℝ) * s - 1| ≤ 0.036 → eps < saver → invLoop I v eps fuel num saver = some o →
    ∃ r, o = some r ∧ r < infinity I ∧ |(magnitude f r : ℝ) * s - 1| ≤ 0.0021 ∧
      |(magnitude f r : ℝ) * s - 1| ≤ 9 * (magnitude f eps * s) ^ 2 + 2.5 * (1 / 2 ^ f.p) := by
  have hP := big_p h
  have he0 : (0 : ℝ) < 1 / 2 ^ f.p := by positivity
  have he1 : (1 : ℝ) / 2 ^ f.p ≤ 1 / 8388608 := one_div_le_one_div_of_le (by norm_num) hP
  intro fuel
  induction fuel with
  | zero => intro num saver o _ _ _ hl; simp [invLoop] at hl
  | succ fuel ih =>
    intro num saver o hnum hw hsv hl
    obtain ⟨next, hst, hfin, herr⟩ := inv_step h hv hn hs hss hnum (by norm_num : (0.036 : ℝ) ≤ 0.04) hw
    have herr2 : |(magnitude f next : ℝ) * s - 1| ≤ 0.0021 := by
      norm_num at herr he1 ⊢
      linarith
    rw [invLoop, if_pos hsv, hst] at hl
    dsimp only at hl
    by_cases hd : eps < fdist I next num
    · exact ih next _ o hfin (by norm_num at herr2 ⊢; linarith) hd hl
    · cases fuel with
      | zero => simp [invLoop] at hl
      | succ fuel =>
        rw [invLoop, if_neg hd] at hl
        cases hl
        refine ⟨next, rfl, hfin, herr2, ?_⟩
        have hdist := le_fdist h hfin.le hnum.le he h0 (by omega)
        have hdist2 : |(magnitude f next : ℝ) * s - magnitude f num * s| ≤ 1.5 * magnitude f eps * s := by
          rw [← sub_mul, abs_mul, abs_of_pos hs]
          exact mul_le_mul_of_nonneg_right hdist hs.le
        obtain ⟨next', hst', _, herr3⟩ := inv_step h hv hn hs hss hnum (by norm_num at hw ⊢; linarith) (le_refl |(magnitude f num : ℝ) * s - 1|)
        rw [hst] at hst'
        cases hst'
        rw [mul_assoc] at hdist2
        have hη : 0 ≤ (magnitude f eps : ℝ) * s := mul_nonneg (by exact_mod_cast mag_nonneg h he.le) hs.le
        generalize (magnitude f eps : ℝ) * s = η at *
        have tri : |(magnitude f num : ℝ) * s - 1| ≤ 1.5 * η + |(magnitude f next : ℝ) * s - 1| := by
          have := abs_sub_abs_le_abs_sub ((magnitude f num : ℝ) * s - 1) ((magnitude f next : ℝ) * s - 1)
          rw [show (magnitude f num : ℝ) * s - 1 - ((magnitude f next : ℝ) * s - 1) = -((magnitude f next : ℝ) * s - magnitude f num * s) by ring,
            abs_neg] at this
          linarith
        have habs : 0 ≤ |(magnitude f num : ℝ) * s - 1| := abs_nonneg _
        generalize |(magnitude f num : ℝ) * s - 1| = x at *
        generalize |(magnitude f next : ℝ) * s - 1| = y at *
        generalize (1 : ℝ) / 2 ^ f.p = e at *
        have k1 : x ^ 2 ≤ 0.036 * x := by rw [sq]; exact mul_le_mul_of_nonneg_right hw habs
        have k2 : x ≤ 1.61 * η + 2.6 * e := by norm_num at *; linarith
        have k3 : x ^ 2 ≤ (1.61 * η + 2.6 * e) ^ 2 := by gcongr
        have k4 : (1.61 * η + 2.6 * e) ^ 2 ≤ 2 * (1.61 * η) ^ 2 + 2 * (2.6 * e) ^ 2 := by nlinarith [sq_nonneg (1.61 * η - 2.6 * e)]
        have k5 : e ^ 2 ≤ 1 / 8388608 * e := by rw [sq]; exact mul_le_mul_of_nonneg_right he1 he0.le
        have k6 : 2 * (1.61 * η) ^ 2 + 2 * (2.6 * e) ^ 2 = 5.1842 * η ^ 2 + 13.52 * e ^ 2 := by ring
        have k7 := sq_nonneg η
        norm_num at *
        linarith

/-- From within `δ` the loop ends within `k` tests. -/
def Ends (I : Info) (f : Format) (v eps : Nat) (s : ℝ) (k : Nat) (δ : ℝ) : Prop :=
  ∀ num, num < infinity I → |(magnitude f num : ℝ) * s - 1| ≤ δ → ∀ saver, ∃ r, ∀ fuel, k ≤ fuel → invLoop I v eps fuel num saver = some (some r)

/-- Within `2.5·2^-p` the next step is short. -/
theorem ends_last (he : eps < infinity I) (hbig : 5 * (1 / 2 ^ f.p) ≤ (magnitude f eps : ℝ) * s) : Ends I f v eps s 2 (2.5 * (1 / 2 ^ f.p)) := by
  have hP := big_p h
  have he0 : (0 : ℝ) < 1 / 2 ^ f.p := by positivity
  have he1 : (1 : ℝ) / 2 ^ f.p ≤ 1 / 8388608 := one_div_le_one_div_of_le (by norm_num) hP
  intro num hnum hw saver
  by_cases hsv : eps < saver
  · obtain ⟨next, hst, hfin, herr⟩ := inv_step h hv hn hs hss hnum (by norm_num at he1 ⊢; linarith : 2.5 * (1 / 2 ^ f.p) ≤ (0.04 : ℝ)) hw
    have herr2 : |(magnitude f next : ℝ) * s - 1| ≤ 2.5 * (1 / 2 ^ f.p) := by
      refine le_trans herr ?_
      generalize (1 : ℝ) / 2 ^ f.p = e at *
      have k5 : e ^ 2 ≤ 1 / 8388608 * e := by rw [sq]; exact mul_le_mul_of_nonneg_right he1 he0.le
      rw [mul_pow]
      norm_num at *
      linarith
    have hd : fdist I next num ≤ eps := by
      apply fdist_le h hfin.le hnum.le he.le
      apply le_of_mul_le_mul_right _ hs
      refine le_trans ?_ hbig
      rw [← abs_of_pos hs, ← abs_mul, sub_mul]
      obtain ⟨a1, a2⟩ := abs_le.1 hw
      obtain ⟨b1, b2⟩ := abs_le.1 herr2
      rw [abs_le]
      constructor <;> norm_num at * <;> linarith
    refine ⟨next, fun fuel hf => ?_⟩
    obtain ⟨k, rfl⟩ : ∃ k, fuel = k + 2 := ⟨fuel - 2, by omega⟩
    rw [invLoop, if_pos hsv, hst]
    dsimp only
    rw [invLoop, if_neg (by omega)]
  · refine ⟨num, fun fuel hf => ?_⟩
    obtain ⟨k, rfl⟩ : ∃ k, fuel = k + 1 := ⟨fuel - 1, by omega⟩
    rw [invLoop, if_neg hsv]

theorem ends_back {k : Nat} {δ δ' : ℝ} (hδ : δ ≤ 0.04) (hd : 1.6 * δ ^ 2 + 2.4 * (1 / 2 ^ f.p) ≤ δ') (hk : Ends I f v eps s k δ') :
    Ends I f v eps s (k + 1) δ := by
  intro num hnum hw saver
  by_cases hsv : eps < saver
  · obtain ⟨next, hst, hfin, herr⟩ := inv_step h hv hn hs hss hnum hδ hw
    obtain ⟨r, hr⟩ := hk next hfin (le_trans herr hd) (fdist I next num)
    refine ⟨r, fun fuel hf => ?_⟩
    obtain ⟨j, rfl⟩ : ∃ j, fuel = j + 1 := ⟨fuel - 1, by omega⟩
    rw [invLoop, if_pos hsv, hst]
    exact hr j (by omega)
  · refine ⟨num, fun fuel hf => ?_⟩
    obtain ⟨j, rfl⟩ : ∃ j, fuel = j + 1 := ⟨fuel - 1, by omega⟩
    rw [invLoop, if_neg hsv]

/-- Seven steps are enough for 112 bits. -/
theorem ends_all (hp : f.p ≤ 112) (he : eps < infinity I) (hbig : 5 * (1 / 2 ^ f.p) ≤ (magnitude f eps : ℝ) * s) : Ends I f v eps s 8 0.036 := by
  have hP := big_p h
  have he0 : (0 : ℝ) < 1 / 2 ^ f.p := by positivity
  have he1 : (1 : ℝ) / 2 ^ f.p ≤ 1 / 8388608 := one_div_le_one_div_of_le (by norm_num) hP
  have he2 : (1 : ℝ) / 2 ^ 112 ≤ 1 / 2 ^ f.p := one_div_le_one_div_of_le (by positivity) (pow_le_pow_right₀ (by norm_num) hp)
  have hlast := ends_last h hv hn hs hss he hbig
  have back := fun {k : Nat} {δ δ' : ℝ} => ends_back (eps := eps) h hv hn hs hss (k := k) (δ := δ) (δ' := δ')
  generalize (1 : ℝ) / 2 ^ f.p = e at *
  have k5 : e ^ 2 ≤ 1 / 8388608 * e := by rw [sq]; exact mul_le_mul_of_nonneg_right he1 he0.le
  have t : ∀ c : ℝ, 0 ≤ c → c ≤ 0.012 → 1.6 * (c + 2.5 * e) ^ 2 + 2.4 * e ≤ 1.6 * c ^ 2 + 2.5 * e := by
    intro c c0 c1
    have k6 : c * e ≤ 0.012 * e := mul_le_mul_of_nonneg_right c1 he0.le
    have : (c + 2.5 * e) ^ 2 = c ^ 2 + 5 * (c * e) + 6.25 * e ^ 2 := by ring
    rw [this]
    norm_num at *
    linarith
  have h6 : Ends I f v eps s 3 (2.6 * e) := back (by norm_num at *; linarith) (by rw [mul_pow]; norm_num at *; linarith) hlast
  have h5 : Ends I f v eps s 4 (1.1e-20 + 2.5 * e) := back (by norm_num at *; linarith)
    (le_trans (t _ (by norm_num) (by norm_num)) (by norm_num at *; linarith)) h6
  have h4 : Ends I f v eps s 5 (8.1e-11 + 2.5 * e) := back (by norm_num at *; linarith)
    (le_trans (t _ (by norm_num) (by norm_num)) (by norm_num at *)) h5
  have h3 : Ends I f v eps s 6 (7.1e-6 + 2.5 * e) := back (by norm_num at *; linarith)
    (le_trans (t _ (by norm_num) (by norm_num)) (by norm_num at *)) h4
  have h2 : Ends I f v eps s 7 (0.0021 + 2.5 * e) := back (by norm_num at *; linarith)
    (le_trans (t _ (by norm_num) (by norm_num)) (by norm_num at *)) h3
  exact back (by norm_num) (by norm_num at *; linarith) h2

end

/-! ### Where it does not -/

/-- However many tests, the loop has not ended. -/
def Stuck (I : Info) (v eps num : Nat) : Prop := ∀ fuel saver, eps < saver → invLoop I v eps fuel num saver = none

theorem stuck_back {num next : Nat} (hst : invStep I v num = some next) (hd : eps < fdist I next num) (hs : Stuck I v eps next) :
    Stuck I v eps num := by
  intro fuel saver hsv
  cases fuel with
  | zero => rfl
  | succ fuel => rw [invLoop, if_pos hsv, hst]; exact hs fuel _ hd

theorem stuck_cycle {a b : Nat} (ha : invStep I v a = some b) (hb : invStep I v b = some a) (hd : eps < fdist I b a) (hd' : eps < fdist I a b) :
    Stuck I v eps a := by
  intro fuel
  have key : (∀ saver, eps < saver → invLoop I v eps fuel a saver = none) ∧ ∀ saver, eps < saver → invLoop I v eps fuel b saver = none := by
    induction fuel with
    | zero => exact ⟨fun _ _ => rfl, fun _ _ => rfl⟩
    | succ fuel ih =>
      constructor
      · intro saver hsv
        rw [invLoop, if_pos hsv, ha]
        exact ih.2 _ hd
      · intro saver hsv
        rw [invLoop, if_pos hsv, hb]
        exact ih.1 _ hd'
  exact key.1

end ELC.Sqrt
