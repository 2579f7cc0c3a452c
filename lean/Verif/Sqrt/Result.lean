import Verif.Sqrt.Loop
import Mathlib.Analysis.Real.Sqrt
/-! What comes out of the loop. -/
namespace ELC.Sqrt

open ELC.Float ELC.Float.Spec

variable {I : Info} {f : Format} {v lo x r : Nat}

/-- How a result comes about: it is one step from a number near it. -/
def Result (I : Info) (f : Format) (v lo r : Nat) : Prop :=
  Around I f (units f.p v * one I) lo ∧ ∃ w, 0 < w ∧ w + 2 ^ f.p < infinity I ∧ r = sqrtStep I v w ∧ fdist I r w ≤ epsilon I ∧ r < infinity I ∧
    (4 * one I ≤ units f.p v → lo ≤ w)

theorem loop_mono {eps : Nat} : ∀ (fuel x saver r : Nat), sqrtLoop I v eps fuel x saver = some r → ∀ n, fuel ≤ n →
    sqrtLoop I v eps n x saver = some r := by
  intro fuel
  induction fuel with
  | zero => intro x saver r hr; cases hr
  | succ fuel ih =>
    intro x saver r hr n hn
    obtain ⟨m, rfl⟩ : ∃ m, n = m + 1 := ⟨n - 1, by omega⟩
    have hr' : (if saver > eps then sqrtLoop I v eps fuel (sqrtStep I v x) (fdist I (sqrtStep I v x) x) else some x) = some r := hr
    show (if saver > eps then sqrtLoop I v eps m (sqrtStep I v x) (fdist I (sqrtStep I v x) x) else some x) = some r
    by_cases hs : saver > eps
    · rw [if_pos hs] at hr' ⊢; exact ih _ _ _ hr' m (by omega)
    · rw [if_neg hs] at hr' ⊢; exact hr'

/-- From a number not below `lo`. -/
theorem loop_result (h : Agrees I f) (hb : f.p + 3 ≤ f.bias) (ha : Around I f (units f.p v * one I) lo) (hx : lo ≤ x)
    (hr : x + 2 ^ f.p < infinity I) {saver : Nat} (hs : epsilon I < saver) :
    ∃ fuel r, sqrtLoop I v (epsilon I) fuel x saver = some r ∧ Result I f v lo r := by
  obtain ⟨fuel, r, h1, h2⟩ := loop_ends h ha (eps := epsilon I) (x - lo) x saver (Nat.le_refl _) hx
  refine ⟨fuel, r, h1, ha, ?_⟩
  have := lo_pos h ha
  have := ha.room
  have hpp := Nat.two_pow_pos f.p
  rcases h2 with ⟨hc, _⟩ | ⟨w, w1, w2, w3, w4⟩
  · omega
  · refine ⟨w, by omega, by omega, w3, w4, ?_, fun _ => w1⟩
    by_cases hw : w = lo
    · have := step_lo_le h ha
      rw [w3, hw]; omega
    · have := step_le h ha (x := w) (by omega)
      rw [w3]; omega

theorem run_result (h : Agrees I f) (hb : f.p + 3 ≤ f.bias) (hv : v < infinity I) (h0 : 0 < v) :
    ∃ fuel r lo, sqrt I fuel v = some (some r) ∧ Result I f v lo r := by
  obtain ⟨lo, ha, hle⟩ := around h hb hv h0
  obtain ⟨_, hq⟩ := quick_eq h hv
  obtain ⟨fuel, r, h1, h2⟩ := loop_result h hb ha hle (by omega) (saver_large h hb)
  refine ⟨fuel, r, lo, ?_, h2⟩
  unfold sqrt
  rw [if_neg (by omega), h1]
  rfl

/-- The guess made by the compiler. -/
theorem const_guess (h : Agrees I f) (hv : v < infinity I) (h0 : 0 < fdiv I v (ofNat I 2)) :
    fdiv I v (ofNat I 2) + 2 ^ f.p < infinity I ∧ units f.p v ≤ 3 * units f.p (fdiv I v (ofNat I 2)) := by
  have ho := one_pos h
  have hle : fdiv I v (ofNat I 2) ≤ v := by
    unfold fdiv
    rw [h.bit, units_two h]
    apply nearest_le h (by omega)
    have := Nat.zero_le (one I * units f.p v)
    calc _ ≤ 2 * (units f.p v * one I) := by omega
      _ = _ := by ring
  have hinf : 3 * 2 ^ f.p < infinity I := by
    rw [infinity_val h]
    exact Nat.mul_lt_mul_of_pos_right (by have := h.large.2; omega) (Nat.two_pow_pos _)
  constructor
  · by_cases hn : 2 * 2 ^ f.p ≤ v
    · rw [half_eq h hn (by omega)]; omega
    · omega
  · generalize hx : fdiv I v (ofNat I 2) = x at *
    have hx' : nearest I (units f.p v * one I) (2 * one I) = x := by
      rw [← hx]; unfold fdiv; rw [h.bit, units_two h]
    have h1 := (nearest_mid h (x := units f.p v * one I) (y := 2 * one I) (by omega) (by omega)).1
    rw [hx', units_sp] at h1
    have h2 : units f.p v ≤ 2 * units f.p x + sp f.p x := by
      apply Nat.le_of_mul_le_mul_left (c := _) _ (show 0 < 2 * one I by omega)
      calc _ = 2 * (units f.p v * one I) := by ring
        _ ≤ _ := h1
        _ = _ := by ring
    have h3 : sp f.p x ≤ units f.p x := by
      by_cases hn : 2 ^ f.p ≤ x
      · have := sp_le_units hn
        have := Nat.mul_le_mul_right (sp f.p x) (Nat.two_pow_pos f.p)
        omega
      · have hd : x / 2 ^ f.p = 0 := Nat.div_eq_of_lt (by omega)
        unfold sp units
        rw [hd, if_pos rfl, Nat.mod_eq_of_lt (by omega)]
        simpa using (show 1 ≤ x from h0)
    omega

/-- It is not below the root from 4 on. -/
theorem const_above (h : Agrees I f) (ha : Around I f (units f.p v * one I) lo) (hv : v < infinity I)
    (hx : fdiv I v (ofNat I 2) = x) (h4 : 4 * one I ≤ units f.p v) : lo ≤ x := by
  have hn : 2 * 2 ^ f.p ≤ v := by
    by_contra hc
    have h1 := units_lt (p := f.p) (show v < 2 * 2 ^ f.p by omega)
    have e2 : units f.p (2 * 2 ^ f.p) = 2 * 2 ^ f.p := by
      unfold units
      rw [Nat.mul_div_left _ (Nat.two_pow_pos _), Nat.mul_mod_left, if_neg (by decide)]; ring
    have h2 : 2 ^ f.p ≤ one I := by
      rw [one_eq h]
      exact Nat.pow_le_pow_right (by decide) (by unfold Kof; have := h.biasPos; omega)
    omega
  rw [half_eq h hn (by omega)] at hx
  have e : units f.p v = 2 * units f.p x := by
    rw [← units_double (by omega)]; congr 1; omega
  by_contra hc
  have h5 := units_lt (p := f.p) (show x < lo by omega)
  have h6 := Nat.mul_lt_mul'' h5 h5
  have h7 := ha.below
  rw [e] at h7 h4
  have h8 := Nat.mul_le_mul_left (units f.p x) (show 2 * one I ≤ units f.p x by omega)
  have h9 : 2 * units f.p x * one I = units f.p x * (2 * one I) := by ring
  omega

theorem const_result (h : Agrees I f) (hb : f.p + 3 ≤ f.bias) (hv : v < infinity I) (h0 : 0 < fdiv I v (ofNat I 2)) :
    ∃ fuel r lo, sqrtConst I fuel v = some (some r) ∧ Result I f v lo r := by
  have hvp : 0 < v := by
    by_contra hc
    have hv0 : v = 0 := by omega
    subst hv0
    have : fdiv I 0 (ofNat I 2) ≤ 0 := by
      unfold fdiv
      rw [h.bit]
      apply nearest_le h
      · rw [units_two h]; have := one_pos h; omega
      · simp [units]
    omega
  obtain ⟨lo, ha, _⟩ := around h hb hv hvp
  obtain ⟨hroom, h3⟩ := const_guess h hv h0
  have red : ∀ fuel, sqrtConst I fuel v =
      (sqrtLoop I v (epsilon I) fuel (fdiv I v (ofNat I 2)) (fmul I (epsilon I) (ofNat I 2))).map some := by
    intro fuel
    unfold sqrtConst
    rw [if_neg (by omega), if_neg (by omega)]
  generalize hx : fdiv I v (ofNat I 2) = x at *
  have hs := saver_large h hb
  by_cases hle : lo ≤ x
  · obtain ⟨fuel, r, h1, h2⟩ := loop_result h hb ha hle hroom hs
    exact ⟨fuel, r, lo, by rw [red, h1]; rfl, h2⟩
  · -- one step leads above
    have hge := step_ge h ha (x := x) h0
    have hsum : sqrtStep I v x + 2 ^ f.p < infinity I := by
      rw [step_eq h ha h0, sum_eq h]
      have hXp : 0 < units f.p x := by have := units_lt (p := f.p) h0; omega
      have hy : quot I v x ≤ ofNat I 3 := by
        rw [quot_eq h]
        apply nearest_le h hXp
        rw [(ofNat_eq h (by norm_num)).1]
        calc _ ≤ 3 * units f.p x * one I := Nat.mul_le_mul_right _ h3
          _ = _ := by ring
      have hY := units_le (p := f.p) hy
      rw [(ofNat_eq h (by norm_num)).1] at hY
      have hXL : units f.p x < units f.p lo := units_lt (by omega)
      have hXO : units f.p x < 3 * one I := by
        have b := ha.below
        have h5 := Nat.mul_lt_mul'' hXL hXL
        have h6 := Nat.mul_le_mul_right (one I) h3
        have h7 : units f.p x * units f.p x < units f.p x * (3 * one I) := by
          calc _ < _ := h5
            _ ≤ _ := b
            _ ≤ _ := h6
            _ = _ := by ring
        exact Nat.lt_of_mul_lt_mul_left h7
      have h8 : nearest I (units f.p x + units f.p (quot I v x)) 1 ≤ ofNat I 6 := by
        apply nearest_le h Nat.one_pos
        rw [(ofNat_eq h (by norm_num)).1]
        omega
      exact lt_of_le_of_lt h8 (ofNat_eq h (by norm_num)).2
    have one : ∀ fuel, sqrtLoop I v (epsilon I) (fuel + 1) x (fmul I (epsilon I) (ofNat I 2)) =
        sqrtLoop I v (epsilon I) fuel (sqrtStep I v x) (fdist I (sqrtStep I v x) x) := by
      intro fuel
      show (if _ then _ else _) = _
      rw [if_pos hs]
    by_cases hd : fdist I (sqrtStep I v x) x ≤ epsilon I
    · refine ⟨2, sqrtStep I v x, lo, ?_, ha, x, h0, hroom, rfl, hd, by have := Nat.two_pow_pos f.p; omega, fun h4 => absurd (const_above h ha hv hx h4) hle⟩
      rw [red, one]
      have : sqrtLoop I v (epsilon I) 1 (sqrtStep I v x) (fdist I (sqrtStep I v x) x) = some (sqrtStep I v x) := by
        show (if _ then _ else _) = _
        rw [if_neg (by omega)]
      rw [this]; rfl
    · obtain ⟨fuel, r, h1, h2⟩ := loop_result h hb ha hge hsum (saver := fdist I (sqrtStep I v x) x) (by omega)
      exact ⟨fuel + 1, r, lo, by rw [red, one, h1]; rfl, h2⟩

theorem result_ge (h : Agrees I f) (hr : Result I f v lo r) : lo ≤ r := by
  obtain ⟨ha, w, w1, w2, w3, w4, w5, w6⟩ := hr
  rw [w3]; exact step_ge h ha w1

theorem result_high (h : Agrees I f) (hb : f.p + 3 ≤ f.bias) (hr : Result I f v lo r) :
    r ≤ lo + 1 ∨ units f.p r ≤ units f.p (lo + 1) + 2 * units f.p (epsilon I) + sp f.p r := by
  obtain ⟨ha, w, w1, w2, w3, w4, w5, w6⟩ := hr
  have hd := dist_small h hb w4
  by_cases hw : w < lo
  · right
    have := units_lt (p := f.p) hw
    have := units_lt (p := f.p) (Nat.lt_succ_self lo)
    simp only [Nat.succ_eq_add_one] at this
    omega
  · by_cases hw2 : w = lo
    · left; rw [w3, hw2]; exact step_lo_le h ha
    · right
      have h1 := step_high h ha (w := w) (by omega) w2
      rw [← w3] at h1
      omega

theorem two_bytes (h : Agrees I f) : ofNat I 2 = (f.bias + 1) * 2 ^ f.p := by
  apply units_inj (p := f.p)
  rw [units_two h, one_eq h]
  unfold units Kof
  have := h.biasPos
  rw [Nat.mul_div_left _ (Nat.two_pow_pos _), Nat.mul_mod_left, if_neg (by omega), Nat.add_zero, ← pow_add, ← pow_succ']
  congr 1
  omega

theorem eps_value (h : Agrees I f) (hb : f.p + 3 ≤ f.bias) : units f.p (epsilon I) = 2 ^ (f.bias - 1) := by
  have h1 := (eps_units h hb).1
  apply Nat.eq_of_mul_eq_mul_right (Nat.two_pow_pos f.p)
  rw [h1, one_eq h, ← pow_add]
  unfold Kof
  congr 1
  omega

/-- From 4 on the spacing at the root is at least twice the bound of the loop. -/
theorem large_spacing (h : Agrees I f) (hb : f.p + 3 ≤ f.bias) (ha : Around I f (units f.p v * one I) lo)
    (h4 : 4 * one I ≤ units f.p v) : 2 * units f.p (epsilon I) ≤ sp f.p lo := by
  have h1 : ofNat I 2 ≤ lo := by
    by_contra hc
    have h2 : units f.p (lo + 1) ≤ units f.p (ofNat I 2) := units_le (by omega)
    rw [units_two h] at h2
    have h3 := Nat.mul_le_mul h2 h2
    have h5 := Nat.mul_le_mul_right (one I) h4
    have h6 := ha.above
    have : 2 * one I * (2 * one I) = 4 * one I * one I := by ring
    omega
  refine Nat.le_trans ?_ (sp_mono h1)
  rw [eps_value h hb, two_bytes h]
  unfold sp
  have := h.biasPos
  rw [Nat.mul_div_left _ (Nat.two_pow_pos _), ← pow_succ']
  exact Nat.pow_le_pow_right (by decide) (by omega)

/-- From 4 on the iteration stands still at the result. -/
theorem result_fixed (h : Agrees I f) (hb : f.p + 3 ≤ f.bias) (hr : Result I f v lo r) (h4 : 4 * one I ≤ units f.p v) :
    sqrtStep I v r = r ∧ (r = lo ∨ r = lo + 1 ∧ units f.p lo * units f.p lo < units f.p v * one I) := by
  have hge := result_ge h hr
  obtain ⟨ha, w, w1, w2, w3, w4, w5, w6⟩ := hr
  have hd := dist_small h hb w4
  have hs := large_spacing h hb ha h4
  have hw := w6 h4
  have e : r = w := by
    by_contra hne
    rcases Nat.lt_or_gt_of_ne hne with hlt | hlt
    · have h1 : units f.p (r + 1) ≤ units f.p w := units_le hlt
      rw [units_sp] at h1
      have := sp_mono (p := f.p) hge
      omega
    · have h1 : units f.p (w + 1) ≤ units f.p r := units_le hlt
      rw [units_sp] at h1
      have := sp_mono (p := f.p) hw
      omega
  subst e
  refine ⟨w3.symm, ?_⟩
  by_cases hl : r = lo
  · exact .inl hl
  · exact .inr (step_fix h ha (by omega) w2 w3.symm)

/-- Near an even number above, the result is that number. -/
theorem result_up (h : Agrees I f) (hb : f.p + 3 ≤ f.bias) (hr : Result I f v lo r) (h4 : 4 * one I ≤ units f.p v)
    (he : (lo + 1) % 2 = 0) (hu : units f.p lo * (units f.p lo + units f.p (lo + 1)) < 2 * (units f.p v * one I)) : r = lo + 1 := by
  obtain ⟨hf, hc⟩ := result_fixed h hb hr h4
  have ha := hr.1
  have hn := ha.normal
  have hroom := ha.room
  rcases hc with hc | hc
  · exfalso
    subst hc
    have hy : r + 1 ≤ quot I v r := by
      rw [quot_eq h]
      exact nearest_up h (units_lo_pos h ha) (by omega) hu
    have hY := units_le (p := f.p) hy
    have hs := step_eq h ha (lo_pos h ha)
    rw [hf, sum_eq h] at hs
    obtain ⟨m1, m2, _⟩ := nearest_mid h Nat.one_pos (x := units f.p r + units f.p (quot I v r)) (by have := Nat.two_pow_pos f.p; omega)
    rw [← hs, show r + 2 ^ f.p + 1 = r + 1 + 2 ^ f.p by omega, units_double (x := r) (by omega), units_double (x := r + 1) (by omega),
      Nat.one_mul] at m1 m2
    have h5 := m2 (by omega)
    have := even_pow h
    omega
  · exact hc.1

end ELC.Sqrt
