import Verif.Sqrt.Quick
/-! The loop: it ends, and where. -/
namespace ELC.Sqrt

open ELC.Float ELC.Float.Spec

variable {I : Info} {f : Format} {v lo x eps : Nat}

theorem fdist_self (h : Agrees I f) (a : Nat) : fdist I a a = 0 := by
  unfold fdist
  rw [Nat.sub_self]
  have := nearest_le h (x := 0 + 0) (y := 1) (c := 0) Nat.one_pos (by simp)
  omega

section
variable (h : Agrees I f) (ha : Around I f (units f.p v * one I) lo)
include h ha

theorem step_eq (hx : 0 < x) : sqrtStep I v x + 2 ^ f.p = fadd I x (quot I v x) := by
  have hn := ha.normal
  have h1 := sum_ge h ha hx
  have h2 : fadd I x (quot I v x) ≤ infinity I := by rw [sum_eq h]; exact sum_le_infinity I _ _
  have hp := Nat.two_pow_pos f.p
  rw [step_of h rfl (by omega) h2]
  omega

theorem step_ge (hx : 0 < x) : lo ≤ sqrtStep I v x := by
  have := step_eq h ha hx
  have := sum_ge h ha hx
  omega

theorem lo_pos : 0 < lo := by have := ha.normal; have := Nat.two_pow_pos f.p; omega

theorem step_le (hx : lo < x) : sqrtStep I v x ≤ x := by
  have := step_eq h ha (x := x) (by omega)
  have := sum_le h ha hx
  omega

theorem step_lo_le : sqrtStep I v lo ≤ lo + 1 := by
  have := step_eq h ha (lo_pos h ha)
  have := sum_lo_le h ha
  omega

theorem step_fix (hx : lo < x) (hr : x + 2 ^ f.p < infinity I) (hf : sqrtStep I v x = x) :
    x = lo + 1 ∧ units f.p lo * units f.p lo < units f.p v * one I :=
  sum_fix h ha hx hr (by have := step_eq h ha (x := x) (by omega); omega)

theorem step_stays (h1 : sqrtStep I v lo = lo + 1) : sqrtStep I v (lo + 1) = lo + 1 := by
  have h2 := step_le h ha (x := lo + 1) (by omega)
  have h3 := step_ge h ha (x := lo + 1) (by omega)
  by_contra hc
  have e1 := step_eq h ha (lo_pos h ha)
  have e2 := step_eq h ha (x := lo + 1) (by omega)
  exact no_cycle h ha (by omega) (by omega)

/-- The loop ends from every number not below `lo`. -/
theorem loop_ends : ∀ (n x saver : Nat), x - lo ≤ n → lo ≤ x → ∃ fuel r, sqrtLoop I v eps fuel x saver = some r ∧
    (saver ≤ eps ∧ r = x ∨ ∃ w, lo ≤ w ∧ (w ≤ x ∨ w = lo + 1) ∧ r = sqrtStep I v w ∧ fdist I r w ≤ eps) := by
  have ret : ∀ x saver, saver ≤ eps → sqrtLoop I v eps 1 x saver = some x := by
    intro x saver hs
    show (if saver > eps then _ else _) = _
    rw [if_neg (by omega)]
  have go : ∀ x saver fuel, eps < saver → sqrtLoop I v eps (fuel + 1) x saver =
      sqrtLoop I v eps fuel (sqrtStep I v x) (fdist I (sqrtStep I v x) x) := by
    intro x saver fuel hs
    show (if saver > eps then _ else _) = _
    rw [if_pos hs]
  have stay : ∀ x saver, eps < saver → sqrtStep I v x = x → sqrtLoop I v eps 2 x saver = some x := by
    intro x saver hs hf
    rw [go x saver 1 hs, hf, fdist_self h, ret _ _ (Nat.zero_le _)]
  intro n
  induction n with
  | zero =>
    intro x saver hn hx
    have : x = lo := by omega
    subst this
    by_cases hs : saver ≤ eps
    · exact ⟨1, _, ret _ _ hs, .inl ⟨hs, rfl⟩⟩
    · have h1 := step_lo_le h ha
      have h2 := step_ge h ha (lo_pos h ha)
      by_cases hf : sqrtStep I v x = x
      · exact ⟨2, x, stay _ _ (by omega) hf, .inr ⟨x, Nat.le_refl _, .inl (Nat.le_refl _), hf.symm, by rw [fdist_self h]; omega⟩⟩
      · have hf' : sqrtStep I v x = x + 1 := by omega
        have hst := step_stays h ha hf'
        by_cases hd : fdist I (x + 1) x ≤ eps
        · exact ⟨2, x + 1, by rw [go x saver 1 (by omega), hf', ret _ _ hd],
            .inr ⟨x, Nat.le_refl _, .inl (Nat.le_refl _), hf'.symm, hd⟩⟩
        · exact ⟨3, x + 1, by rw [go x saver 2 (by omega), hf', stay _ _ (by omega) hst],
            .inr ⟨x + 1, by omega, .inr rfl, hst.symm, by rw [fdist_self h]; omega⟩⟩
  | succ n ih =>
    intro x saver hn hx
    by_cases hs : saver ≤ eps
    · exact ⟨1, _, ret _ _ hs, .inl ⟨hs, rfl⟩⟩
    by_cases hxl : x = lo
    · exact ih x saver (by omega) hx
    have h1 := step_le h ha (x := x) (by omega)
    have h2 := step_ge h ha (x := x) (by omega)
    by_cases hf : sqrtStep I v x = x
    · exact ⟨2, x, stay _ _ (by omega) hf, .inr ⟨x, hx, .inl (Nat.le_refl _), hf.symm, by rw [fdist_self h]; omega⟩⟩
    · obtain ⟨fuel, r, hr, hc⟩ := ih (sqrtStep I v x) (fdist I (sqrtStep I v x) x) (by omega) h2
      refine ⟨fuel + 1, r, by rw [go x saver fuel (by omega), hr], .inr ?_⟩
      rcases hc with ⟨hd, e⟩ | ⟨w, w1, w2, w3, w4⟩
      · exact ⟨x, hx, .inl (Nat.le_refl _), e, by rw [e]; exact hd⟩
      · exact ⟨w, w1, by omega, w3, w4⟩

end

theorem eps_units (h : Agrees I f) (hb : f.p + 3 ≤ f.bias) : units f.p (epsilon I) * 2 ^ f.p = one I ∧ 2 * 2 ^ f.p ≤ epsilon I ∧
    epsilon I < infinity I := by
  have h1 := (ofNat_eq h (n := 1) (by norm_num)).1
  have h2 := (ofNat_eq h (n := 1) (by norm_num)).2
  rw [Nat.one_mul] at h1
  -- bytes of one
  have hone : ofNat I 1 = f.bias * 2 ^ f.p := by
    apply units_inj (p := f.p)
    rw [h1, one_eq h]
    have := h.biasPos
    unfold units Kof
    rw [Nat.mul_div_left _ (Nat.two_pow_pos _), Nat.mul_mod_left, if_neg (by omega), Nat.add_zero, ← pow_add]
    congr 1
    omega
  have he : epsilon I = (f.bias - f.p) * 2 ^ f.p := by
    unfold epsilon
    rw [hone, h.bit, Nat.sub_mul]
  refine ⟨?_, ?_, ?_⟩
  · rw [he, one_eq h]
    unfold units Kof
    rw [Nat.mul_div_left _ (Nat.two_pow_pos _), Nat.mul_mod_left, if_neg (by omega), Nat.add_zero, ← pow_add, ← pow_add]
    congr 1
    omega
  · rw [he]; exact Nat.mul_le_mul_right _ (by omega)
  · unfold epsilon; omega

/-- What a small change says. -/
theorem dist_small (h : Agrees I f) (hb : f.p + 3 ≤ f.bias) {a b : Nat} (hd : fdist I a b ≤ epsilon I) :
    units f.p a - units f.p b + (units f.p b - units f.p a) < 2 * units f.p (epsilon I) := by
  obtain ⟨_, e2, e3⟩ := eps_units h hb
  unfold fdist at hd
  rw [h.bit] at hd
  by_contra hc
  have hpp := two_le_pow h
  have h1 : epsilon I + 1 ≤ nearest I (units f.p a - units f.p b + (units f.p b - units f.p a)) 1 := by
    apply nearest_ge h Nat.one_pos _ (by omega)
    rw [units_sp]
    have := sp_le_units (p := f.p) (x := epsilon I) (by omega)
    have := Nat.mul_le_mul_right (sp f.p (epsilon I)) (show 1 ≤ 2 ^ f.p by omega)
    omega
  omega

/-- The first change is not small. -/
theorem saver_large (h : Agrees I f) (hb : f.p + 3 ≤ f.bias) : epsilon I < fmul I (epsilon I) (ofNat I 2) := by
  obtain ⟨_, e2, e3⟩ := eps_units h hb
  unfold fmul
  rw [h.bit, units_two h]
  apply Nat.lt_of_succ_le
  have hpp := two_le_pow h
  apply nearest_ge h (one_pos h) _ (by omega)
  rw [Nat.succ_eq_add_one, units_sp]
  have := sp_le_units (p := f.p) (x := epsilon I) (by omega)
  have h1 := Nat.mul_le_mul_right (sp f.p (epsilon I)) (show 1 ≤ 2 ^ f.p by omega)
  have h2 : units f.p (epsilon I) + sp f.p (epsilon I) ≤ 2 * units f.p (epsilon I) := by omega
  calc _ ≤ one I * (2 * units f.p (epsilon I)) := Nat.mul_le_mul_left _ h2
    _ = _ := by ring

/-- How far a result can be above, in terms of the number before it. -/
theorem step_high (h : Agrees I f) (ha : Around I f (units f.p v * one I) lo) {w : Nat} (hw : lo < w) (hr : w + 2 ^ f.p < infinity I) :
    2 * units f.p (sqrtStep I v w) ≤ units f.p w + units f.p (lo + 1) + sp f.p (sqrtStep I v w) := by
  have hn := ha.normal
  have hWp : 0 < units f.p w := by have := units_lt (p := f.p) (show 0 < w by omega); omega
  have hy : quot I v w ≤ lo + 1 := by
    rw [quot_eq h]
    apply nearest_le h hWp
    have h1 := ha.above
    have h2 : units f.p (lo + 1) ≤ units f.p w := units_le hw
    have := Nat.mul_le_mul_right (units f.p (lo + 1)) h2
    omega
  have hY := units_le (p := f.p) hy
  have he := step_eq h ha (x := w) (by omega)
  have hg := step_ge h ha (x := w) (by omega)
  have hle := step_le h ha hw
  rw [sum_eq h] at he
  generalize hrr : sqrtStep I v w = r at *
  have hpp := two_le_pow h
  obtain ⟨c, hc⟩ : ∃ c, r = c + 1 := ⟨r - 1, by omega⟩
  have h1 := ((nearest_mid h Nat.one_pos (x := units f.p w + units f.p (quot I v w)) (by omega)).2.2 (c + 2 ^ f.p) (by omega)).1
  rw [show c + 2 ^ f.p + 1 = r + 2 ^ f.p by omega, units_double (x := c) (by omega), units_double (x := r) (by omega), Nat.one_mul] at h1
  have e3 : units f.p r = units f.p c + sp f.p c := by rw [hc, units_sp]
  have e4 : sp f.p c ≤ sp f.p r := sp_mono (by omega)
  omega

end ELC.Sqrt
