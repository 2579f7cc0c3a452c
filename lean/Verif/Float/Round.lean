import Verif.Float.Guess
/-! From a native number to a fraction and back. -/
namespace ELC.Float

open Spec
open ELC.Bigfloat (UFrac)

variable {I : Info} {f : Format}

/-- A quotient of small numbers does not begin with many ones. -/
theorem not_ones_small {w N D : Nat} (hw : 17 < w) (hN : 0 < N) (hN' : N < 2 ^ 7) (hD : 0 < D) (hD' : D ≤ 2 ^ 17) :
    ¬ Ones w ((N : ℚ) / D) := by
  rintro ⟨g, h1, h2⟩
  have hDq : (0 : ℚ) < D := by exact_mod_cast hD
  have hpw : 2 ^ 18 ≤ 2 ^ w := Nat.pow_le_pow_right (by norm_num) hw
  have key : ∀ X Y : Nat, X < Y → (2 ^ w - 1) * Y ≤ 2 ^ w * X → 2 ^ w ≤ Y := by
    intro X Y hlt hle
    have : (2 ^ w - 1) * Y = 2 ^ w * Y - Y := by rw [Nat.sub_mul, Nat.one_mul]
    have h3 : 2 ^ w * (X + 1) ≤ 2 ^ w * Y := Nat.mul_le_mul_left _ hlt
    have h4 : Y ≤ 2 ^ w * Y := Nat.le_mul_of_pos_left _ (by omega)
    rw [Nat.mul_add, Nat.mul_one] at h3
    omega
  have hcast : ((2 ^ w - 1 : Nat) : ℚ) = 2 ^ w - 1 := by
    rw [Nat.cast_sub (by omega)]; push_cast; rfl
  by_cases hk : 0 ≤ (w : ℤ) + g
  · obtain ⟨k, hk'⟩ : ∃ k : Nat, (w : ℤ) + g = k := ⟨((w : ℤ) + g).toNat, by omega⟩
    have e : (2 : ℚ) ^ w * 2 ^ g = ((2 ^ k : Nat) : ℚ) := by
      rw [← zpow_natCast, ← two_zpow_add, hk', two_zpow_nat]
    have a : N < D * 2 ^ k := by
      rw [e, div_lt_iff₀ hDq] at h2
      have : (N : ℚ) < ((2 ^ k * D : Nat) : ℚ) := by push_cast at h2 ⊢; linarith
      rw [Nat.mul_comm]; exact_mod_cast this
    have b : (2 ^ w - 1) * (D * 2 ^ k) ≤ 2 ^ w * N := by
      rw [le_div_iff₀ hDq] at h1
      have h3 : (2 : ℚ) ^ w * (((2 : ℚ) ^ w - 1) * 2 ^ g * D) ≤ 2 ^ w * N := mul_le_mul_of_nonneg_left h1 (by positivity)
      have e2 : (2 : ℚ) ^ w * (((2 : ℚ) ^ w - 1) * 2 ^ g * D) = (((2 ^ w - 1) * (D * 2 ^ k) : Nat) : ℚ) := by
        rw [Nat.cast_mul, hcast, Nat.cast_mul, ← e]; ring
      rw [e2] at h3
      exact_mod_cast h3
    have c := key _ _ a b
    have d : 2 * (D * 2 ^ k) ≤ 2 * (2 * N) + 0 := by
      by_contra hcon
      have h5 : 2 * N + 1 ≤ D * 2 ^ k := by omega
      have h6 : (2 ^ w - 1) * (2 * N + 1) ≤ (2 ^ w - 1) * (D * 2 ^ k) := Nat.mul_le_mul_left _ h5
      have h7 : (2 ^ w - 1) * (2 * N + 1) = 2 ^ w * (2 * N + 1) - (2 * N + 1) := by rw [Nat.sub_mul, Nat.one_mul]
      have h8 : 2 ^ w * (2 * N + 1) = 2 * (2 ^ w * N) + 2 ^ w := by ring
      have h9 : 2 ^ 18 * N ≤ 2 ^ w * N := Nat.mul_le_mul_right _ hpw
      omega
    omega
  · obtain ⟨k, hk'⟩ : ∃ k : Nat, (w : ℤ) + g = -k := ⟨(-((w : ℤ) + g)).toNat, by omega⟩
    have e : (2 : ℚ) ^ w * 2 ^ g * ((2 ^ k : Nat) : ℚ) = 1 := by
      rw [← zpow_natCast, ← two_zpow_add, hk', ← two_zpow_nat, ← two_zpow_add]; simp
    have hkq : (0 : ℚ) < ((2 ^ k : Nat) : ℚ) := by exact_mod_cast Nat.two_pow_pos k
    have a : N * 2 ^ k < D := by
      rw [div_lt_iff₀ hDq] at h2
      have h3 := mul_lt_mul_of_pos_right h2 hkq
      rw [show (2 : ℚ) ^ w * 2 ^ g * D * ((2 ^ k : Nat) : ℚ) = (2 : ℚ) ^ w * 2 ^ g * ((2 ^ k : Nat) : ℚ) * D by ring, e,
        one_mul] at h3
      exact_mod_cast h3
    have b : (2 ^ w - 1) * D ≤ 2 ^ w * (N * 2 ^ k) := by
      rw [le_div_iff₀ hDq] at h1
      have h3 : (2 : ℚ) ^ w * ((2 ^ k : Nat) : ℚ) * (((2 : ℚ) ^ w - 1) * 2 ^ g * D) ≤ 2 ^ w * ((2 ^ k : Nat) : ℚ) * N :=
        mul_le_mul_of_nonneg_left h1 (by positivity)
      rw [show (2 : ℚ) ^ w * ((2 ^ k : Nat) : ℚ) * (((2 : ℚ) ^ w - 1) * 2 ^ g * D)
        = (2 : ℚ) ^ w * 2 ^ g * ((2 ^ k : Nat) : ℚ) * (((2 : ℚ) ^ w - 1) * D) by ring, e, one_mul, ← hcast] at h3
      have h4 : (((2 ^ w - 1) * D : Nat) : ℚ) ≤ ((2 ^ w * (N * 2 ^ k) : Nat) : ℚ) := by
        rw [Nat.cast_mul]
        refine le_trans h3 (le_of_eq ?_)
        push_cast; ring
      exact_mod_cast h4
    have c := key _ _ a b
    omega

/-- A nearest number and a number next to `q` differ by at most one place. -/
theorem nearest_neighbour (h : Agrees I f) {q : ℚ} {v r : Nat} (hv : Nearest f q v) (hr : Down f q r ∨ Up f q r) :
    r = v ∨ r + 1 = v ∨ r = v + 1 := by
  rcases hr with hr | hr
  · by_cases hlt : v < r
    · exfalso
      have h1 := hv.2 r hr.1
      have h2 : magnitude f v < magnitude f r := by
        by_contra hc
        have := (magnitude_le_magnitude h hr.1.1 hv.1.1).1 (not_lt.1 hc)
        omega
      have h3 := hr.2.1
      rw [abs_of_nonneg (by linarith), abs_of_nonneg (by linarith)] at h1
      linarith
    · by_cases hgt : r + 1 < v
      · exfalso
        have hp : Plain f (r + 1) := (plain_iff h _).2 (by have := (plain_iff h v).1 hv.1; omega)
        have h1 := hv.2 (r + 1) hp
        have h2 : magnitude f (r + 1) < magnitude f v := by
          by_contra hc
          have := (magnitude_le_magnitude h hv.1.1 hp.1).1 (not_lt.1 hc)
          omega
        have h3 : q < magnitude f (r + 1) := by
          by_contra hc
          have := (magnitude_le_magnitude h hp.1 hr.1.1).1 (hr.2.2 _ hp (not_lt.1 hc))
          omega
        rw [abs_of_neg (by linarith), abs_of_neg (by linarith)] at h1
        linarith
      · omega
  · by_cases hlt : r < v
    · exfalso
      have h1 := hv.2 r hr.1
      have h2 : magnitude f r < magnitude f v := by
        by_contra hc
        have := (magnitude_le_magnitude h hv.1.1 hr.1.1).1 (not_lt.1 hc)
        omega
      have h3 := hr.2.1
      rw [abs_of_nonpos (by linarith), abs_of_nonpos (by linarith)] at h1
      linarith
    · by_cases hgt : v + 1 < r
      · exfalso
        have hp : Plain f (v + 1) := (plain_iff h _).2 (by have := (plain_iff h r).1 hr.1; omega)
        have h1 := hv.2 (v + 1) hp
        have h2 : magnitude f v < magnitude f (v + 1) := by
          by_contra hc
          have := (magnitude_le_magnitude h hp.1 hv.1.1).1 (not_lt.1 hc)
          omega
        have h3 : magnitude f (v + 1) < q := by
          by_contra hc
          have := (magnitude_le_magnitude h hr.1.1 hp.1).1 (hr.2.2 _ hp (not_lt.1 hc))
          omega
        rw [abs_of_pos (by linarith), abs_of_pos (by linarith)] at h1
        linarith
      · omega

/-- There and back: at most one place off, and not at all from one on. -/
theorem roundtrip_eq (h : Agrees I f) {v : Nat} (hv : Plain f v) {a : UFrac} (ha : toFraction I v = .done a) :
    ∃ r, toFloat I a = .done r ∧ (r = v ∨ r + 1 = v ∨ r = v + 1) ∧
      (v = 0 ∨ 1 ≤ magnitude f v → r = v) := by
  obtain ⟨h1, hco, h2⟩ := toFraction_done h hv ha
  have hl := h.large
  have hr := h.room
  by_cases h0 : v = 0
  · subst h0
    have hm0 : magnitude f 0 = 0 := by rw [magnitude_one h _ hv.1, units_zero]; simp
    have hnum : a.num = 0 ∧ a.den = 1 := by
      rcases h2 with h2 | ⟨_, h3, h4, h5, h6⟩
      · rw [hm0, div_eq_zero_iff, Nat.cast_eq_zero, Nat.cast_eq_zero] at h2
        have : a.num = 0 := by omega
        rw [this] at hco
        exact ⟨this, by simpa using hco⟩
      · exfalso
        have hd : toFraction I 0 = .done ⟨0, 1⟩ := by
          have ho := one_pos h
          have hf : fracPart I 0 = 0 := (fract_zero_iff h 0).2 (by rw [units_zero, Nat.zero_mod])
          have he : getExponent I 0 < 0 := by
            have := getExponent_eq h hv.2
            rw [if_pos (by unfold field; simp)] at this
            omega
          have hi : toBig I (intPart I 0) = 0 := by
            rw [toBig_eq h (intPart_plain h hv), (parts_eq h 0).1, units_zero]; simp
          unfold toFraction toDivide
          dsimp only
          rw [if_pos he, if_pos hf]
          dsimp only
          rw [hi]
        rw [hd] at ha
        simp only [Outcome.done.injEq] at ha
        subst ha
        exact absurd h3 (by norm_num)
    have ea : a = ⟨0, 1⟩ := by cases a; simp_all
    refine ⟨0, ?_, Or.inl rfl, fun _ => rfl⟩
    rw [ea, toFloat_zero h (by norm_num), ctz_odd (by norm_num), makeFloat_zero h, if_neg]
    simp only [Nat.cast_zero, neg_zero]
    omega
  · rcases h2 with h2 | ⟨hlt, h3, h4, h5, h6⟩
    · refine ⟨v, ?_, Or.inl rfl, fun _ => rfl⟩
      exact toFloat_exact h h1 hv h0 h2
    · have hD : 0 < a.den := Nat.pos_of_ne_zero h1
      have hDq : (0 : ℚ) < a.den := by exact_mod_cast hD
      have hones := not_ones_small (w := f.width) (by omega) h3 h4 hD h5
      obtain ⟨_, _, h7⟩ := toFloat_cases h (N := a.num) (by omega) h1 hones
      have hlow : (2 : ℚ) ^ (2 - f.bias - f.width : ℤ) ≤ a.num / a.den := by
        rw [le_div_iff₀ hDq]
        calc (2 : ℚ) ^ (2 - f.bias - f.width : ℤ) * a.den ≤ 2 ^ (-17 : ℤ) * 2 ^ (17 : ℤ) := by
              apply mul_le_mul (zpow_le_iff.2 (by omega)) _ hDq.le (two_zpow_pos _).le
              have : (a.den : ℚ) ≤ ((2 ^ 17 : Nat) : ℚ) := by exact_mod_cast h5
              refine le_trans this (le_of_eq ?_)
              norm_num
          _ = 1 := by rw [← two_zpow_add]; simp
          _ ≤ a.num := by exact_mod_cast h3
      have hhigh : (a.num : ℚ) / a.den < 2 ^ (f.bias + 1 : ℤ) := by
        rw [div_lt_iff₀ hDq]
        have hd1 : (1 : ℚ) ≤ a.den := by exact_mod_cast hD
        have hn : (a.num : ℚ) < 2 ^ (7 : ℤ) := by
          have : (a.num : ℚ) < ((2 ^ 7 : Nat) : ℚ) := by exact_mod_cast h4
          refine lt_of_lt_of_le this (le_of_eq ?_)
          norm_num
        have hb : (2 : ℚ) ^ (7 : ℤ) ≤ 2 ^ (f.bias + 1 : ℤ) := zpow_le_iff.2 (by omega)
        have := two_zpow_pos (f.bias + 1 : ℤ)
        nlinarith
      obtain ⟨r, h8, h9⟩ := h7 hlow hhigh
      refine ⟨r, h8, nearest_neighbour h h6.1 (h9.imp id (fun x => x.1)), ?_⟩
      rintro (hz | hz)
      · exact absurd hz h0
      · linarith

end ELC.Float
