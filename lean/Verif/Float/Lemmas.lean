import Verif.Float.Model
import Verif.Bits.Props
import Mathlib.Tactic.Ring
import Mathlib.Tactic.Linarith
/-! Units and truncation, on natural numbers. -/
namespace ELC.Float

theorem units_succ (p d : Nat) : units p (d + 1) = units p d + 2 ^ (d / 2 ^ p - 1) := by
  have hp : 0 < 2 ^ p := Nat.two_pow_pos p
  have hd := Nat.div_add_mod d (2 ^ p)
  have hlt := Nat.mod_lt d hp
  generalize hE : d / 2 ^ p = E at *
  generalize hm : d % 2 ^ p = m at *
  unfold units
  rw [hE, hm]
  by_cases h : m + 1 < 2 ^ p
  · have h1 : (d + 1) / 2 ^ p = E := by
      rw [← hd, Nat.add_assoc, Nat.mul_add_div hp, Nat.div_eq_of_lt h]; rfl
    have h2 : (d + 1) % 2 ^ p = m + 1 := by
      rw [← hd, Nat.add_assoc, Nat.mul_add_mod, Nat.mod_eq_of_lt h]
    rw [h1, h2]
    split
    · rename_i h0; subst h0; simp
    · ring
  · have hm' : m + 1 = 2 ^ p := by omega
    have h0 : d + 1 = 2 ^ p * (E + 1) + 0 := by rw [Nat.mul_add]; omega
    have h1 : (d + 1) / 2 ^ p = E + 1 := by rw [h0, Nat.mul_add_div hp]; simp
    have h2 : (d + 1) % 2 ^ p = 0 := by rw [h0, Nat.mul_add_mod]; simp
    rw [h1, h2, if_neg (by omega)]
    split
    · rename_i h0; subst h0; simp; omega
    · rename_i hne
      obtain ⟨F, rfl⟩ : ∃ F, E = F + 1 := ⟨E - 1, by omega⟩
      simp only [Nat.add_sub_cancel, Nat.add_zero]
      rw [pow_succ, ← hm']; ring

theorem units_lt_succ (p d : Nat) : units p d < units p (d + 1) := by
  rw [units_succ]; have := Nat.two_pow_pos (d / 2 ^ p - 1); omega

theorem units_lt {p : Nat} : ∀ {a b : Nat}, a < b → units p a < units p b := by
  intro a b h
  induction b with
  | zero => omega
  | succ b ih =>
    have := units_lt_succ p b
    by_cases h' : a < b
    · exact Nat.lt_trans (ih h') this
    · have : a = b := by omega
      subst this; assumption

theorem units_le {p a b : Nat} (h : a ≤ b) : units p a ≤ units p b := by
  rcases Nat.lt_or_eq_of_le h with h | h
  · exact Nat.le_of_lt (units_lt h)
  · rw [h]

theorem units_le_iff {p a b : Nat} : units p a ≤ units p b ↔ a ≤ b := by
  constructor
  · intro h
    by_contra hc
    have := units_lt (p := p) (Nat.lt_of_not_le hc)
    omega
  · exact units_le

theorem units_inj {p a b : Nat} (h : units p a = units p b) : a = b :=
  Nat.le_antisymm ((units_le_iff (p := p)).1 (by omega)) ((units_le_iff (p := p)).1 (by omega))

theorem units_zero (p : Nat) : units p 0 = 0 := by simp [units]

/-- Units as a significand of at most `p+1` bits, shifted. -/
theorem units_form (p d : Nat) : ∃ m, m < 2 ^ (p + 1) ∧ units p d = m * 2 ^ (d / 2 ^ p - 1) := by
  have hlt := Nat.mod_lt d (Nat.two_pow_pos p)
  unfold units
  split
  · rename_i h; exact ⟨d % 2 ^ p, by rw [pow_succ]; omega, by rw [h]; simp⟩
  · exact ⟨2 ^ p + d % 2 ^ p, by rw [pow_succ]; omega, rfl⟩

theorem units_combine (p s y : Nat) (h1 : y < 2 ^ (p + 1)) (h2 : s = 0 ∨ 2 ^ p ≤ y) :
    units p (s * 2 ^ p + y) = y * 2 ^ s ∧ ((s * 2 ^ p + y) / 2 ^ p - 1 = s) := by
  have hp : 0 < 2 ^ p := Nat.two_pow_pos p
  rw [pow_succ] at h1
  by_cases hy : 2 ^ p ≤ y
  · obtain ⟨m, rfl⟩ : ∃ m, y = 2 ^ p + m := ⟨y - 2 ^ p, by omega⟩
    have hm : m < 2 ^ p := by omega
    have e : s * 2 ^ p + (2 ^ p + m) = 2 ^ p * (s + 1) + m := by ring
    have hd : (s * 2 ^ p + (2 ^ p + m)) / 2 ^ p = s + 1 := by
      rw [e, Nat.mul_add_div hp, Nat.div_eq_of_lt hm]
    have hmod : (s * 2 ^ p + (2 ^ p + m)) % 2 ^ p = m := by
      rw [e, Nat.mul_add_mod, Nat.mod_eq_of_lt hm]
    unfold units
    rw [hd, hmod]
    simp
  · have hs : s = 0 := by omega
    subst hs
    have hy' : y < 2 ^ p := by omega
    unfold units
    simp [Nat.div_eq_of_lt hy', Nat.mod_eq_of_lt hy']

theorem log2_bounds {x : Nat} (h : x ≠ 0) : 2 ^ Nat.log2 x ≤ x ∧ x < 2 ^ (Nat.log2 x + 1) :=
  ⟨Nat.log2_self_le h, Nat.lt_log2_self⟩

theorem log2_eq {x l : Nat} (h1 : 2 ^ l ≤ x) (h2 : x < 2 ^ (l + 1)) : Nat.log2 x = l := by
  have hx : x ≠ 0 := by have := Nat.two_pow_pos l; omega
  obtain ⟨a, b⟩ := log2_bounds hx
  have := (Nat.pow_lt_pow_iff_right (by norm_num : 1 < 2)).1 (Nat.lt_of_le_of_lt a h2)
  have := (Nat.pow_lt_pow_iff_right (by norm_num : 1 < 2)).1 (Nat.lt_of_le_of_lt h1 b)
  omega

theorem trunc_parts (p x : Nat) : x / 2 ^ (Nat.log2 x - p) < 2 ^ (p + 1) ∧
    (Nat.log2 x - p = 0 ∨ 2 ^ p ≤ x / 2 ^ (Nat.log2 x - p)) := by
  by_cases hx : x = 0
  · subst hx; simp
  obtain ⟨h1, h2⟩ := log2_bounds hx
  generalize Nat.log2 x = l at *
  have hpos : 0 < 2 ^ (l - p) := Nat.two_pow_pos _
  constructor
  · rw [Nat.div_lt_iff_lt_mul hpos, ← pow_add]
    exact Nat.lt_of_lt_of_le h2 (Nat.pow_le_pow_right (by norm_num) (by omega))
  · by_cases h : l - p = 0
    · exact Or.inl h
    · right
      rw [Nat.le_div_iff_mul_le hpos, ← pow_add]
      rwa [show p + (l - p) = l by omega]

/-- `trunc` finds the greatest number not above `x` units. -/
theorem trunc_spec (p x : Nat) : units p (trunc p x) ≤ x ∧ x < units p (trunc p x + 1) := by
  obtain ⟨h1, h2⟩ := trunc_parts p x
  have hpos : 0 < 2 ^ (Nat.log2 x - p) := Nat.two_pow_pos _
  unfold trunc
  obtain ⟨h3, h4⟩ := units_combine p _ _ h1 h2
  rw [units_succ, h4, h3]
  have := Nat.div_add_mod x (2 ^ (Nat.log2 x - p))
  have := Nat.mod_lt x hpos
  constructor
  · rw [Nat.mul_comm]; omega
  · rw [Nat.mul_comm (x / _)]; omega

theorem trunc_le_iff {p x d : Nat} : units p d ≤ x ↔ d ≤ trunc p x := by
  obtain ⟨h1, h2⟩ := trunc_spec p x
  constructor
  · intro h
    by_contra hc
    have := units_le (p := p) (Nat.succ_le_of_lt (Nat.lt_of_not_le hc))
    simp only [Nat.succ_eq_add_one] at this
    omega
  · intro h; exact Nat.le_trans (units_le h) h1

theorem trunc_units (p d : Nat) : trunc p (units p d) = d := by
  refine Nat.le_antisymm ?_ (trunc_le_iff.1 (Nat.le_refl _))
  obtain ⟨h1, _⟩ := trunc_spec p (units p d)
  exact units_le_iff.1 h1

theorem trunc_zero (p : Nat) : trunc p 0 = 0 := by simp [trunc]

theorem trunc_mono {p x y : Nat} (h : x ≤ y) : trunc p x ≤ trunc p y :=
  trunc_le_iff.1 (Nat.le_trans (trunc_spec p x).1 h)

/-- Numbers with a small significand are met exactly. -/
theorem trunc_exact {p m t : Nat} (h : m < 2 ^ (p + 1)) : units p (trunc p (m * 2 ^ t)) = m * 2 ^ t := by
  have h0 := (trunc_spec p (m * 2 ^ t)).1
  have hp : 0 < 2 ^ t := Nat.two_pow_pos t
  by_cases hm : m = 0
  · subst hm; simp only [Nat.zero_mul] at h0 ⊢; omega
  obtain ⟨h1, h2⟩ := trunc_parts p (m * 2 ^ t)
  unfold trunc
  rw [(units_combine p _ _ h1 h2).1]
  obtain ⟨a, b⟩ := log2_bounds (x := m) hm
  have hl : Nat.log2 (m * 2 ^ t) = Nat.log2 m + t := by
    apply log2_eq
    · rw [pow_add]; exact Nat.mul_le_mul_right _ a
    · rw [show Nat.log2 m + t + 1 = (Nat.log2 m + 1) + t by omega, pow_add]; exact Nat.mul_lt_mul_of_pos_right b hp
  have hle : Nat.log2 m ≤ p := by
    have := (Nat.pow_lt_pow_iff_right (by norm_num : 1 < 2)).1 (Nat.lt_of_le_of_lt a h)
    omega
  rw [hl]
  have hs : Nat.log2 m + t - p ≤ t := by omega
  apply Nat.div_mul_cancel
  exact Dvd.dvd.mul_left (Nat.pow_dvd_pow 2 hs) m

/-- Leading zeros and length. -/
theorem countlZero_eq {k n : Nat} (h : n < 2 ^ Bits.bitsOf k) :
    Bits.countlZero k n + bitnum n = Bits.bitsOf k := by
  obtain ⟨h1, h2, h3⟩ := Bits.countl_zero_correct k n h
  generalize Bits.bitsOf k = W at *
  generalize Bits.countlZero k n = z at *
  have hlt : n < 2 ^ (W - z) := by
    apply Nat.lt_pow_two_of_testBit
    intro i hi
    by_cases hiW : i < W
    · have := h2 (W - 1 - i) (by omega)
      unfold Bits.Spec.fromLeft at this
      rwa [show W - 1 - (W - 1 - i) = i by omega] at this
    · exact Nat.testBit_lt_two_pow (Nat.lt_of_lt_of_le h (Nat.pow_le_pow_right (by norm_num) (by omega)))
  unfold bitnum
  split
  · rename_i h0
    by_contra hc
    have := h3 (by omega)
    subst h0
    simp [Bits.Spec.fromLeft] at this
  · rename_i h0
    by_cases hz : z < W
    · have := h3 hz
      unfold Bits.Spec.fromLeft at this
      have hge : 2 ^ (W - 1 - z) ≤ n := Nat.ge_two_pow_of_testBit (by simpa using this)
      have : Nat.log2 n = W - 1 - z := log2_eq hge (by rwa [show W - 1 - z + 1 = W - z by omega])
      omega
    · exfalso
      have : W - z = 0 := by omega
      rw [this] at hlt
      omega

theorem bitnum_bounds {n : Nat} (h : n ≠ 0) : 2 ^ (bitnum n - 1) ≤ n ∧ n < 2 ^ bitnum n := by
  unfold bitnum
  rw [if_neg h]
  exact ⟨(log2_bounds h).1, (log2_bounds h).2⟩

theorem bitnum_pos {n : Nat} (h : n ≠ 0) : 0 < bitnum n := by
  unfold bitnum; rw [if_neg h]; omega

theorem bitnum_le {n w : Nat} (h : n < 2 ^ w) : bitnum n ≤ w := by
  by_cases h0 : n = 0
  · subst h0; simp [bitnum]
  · have := (bitnum_bounds h0).1
    have := (Nat.pow_lt_pow_iff_right (by norm_num : 1 < 2)).1 (Nat.lt_of_le_of_lt this h)
    omega

theorem lt_of_bitnum_le {n w : Nat} (h : bitnum n ≤ w) : n < 2 ^ w := by
  by_cases h0 : n = 0
  · subst h0; exact Nat.two_pow_pos w
  · exact Nat.lt_of_lt_of_le (bitnum_bounds h0).2 (Nat.pow_le_pow_right (by norm_num) h)

/-- The greatest integer not above `n·2^z`. -/
def scale (n : Nat) (z : Int) : Nat := if 0 ≤ z then n * 2 ^ z.toNat else n / 2 ^ (-z).toNat

theorem ctz_spec (n : Nat) : n = (n >>> ctz n) * 2 ^ ctz n ∧ (n ≠ 0 → (n >>> ctz n) % 2 = 1) := by
  induction n using Nat.strongRecOn with
  | ind n ih =>
    rw [ctz]
    split
    · rename_i h
      obtain ⟨h1, h2⟩ := ih (n / 2) (by omega)
      rw [Nat.shiftRight_eq_div_pow] at *
      have e : n / 2 ^ (ctz (n / 2) + 1) = n / 2 / 2 ^ ctz (n / 2) := by
        rw [pow_succ, Nat.mul_comm, Nat.div_div_eq_div_mul]
      rw [e]
      constructor
      · rw [pow_succ, ← Nat.mul_assoc, ← h1]; omega
      · intro _; exact h2 (by omega)
    · rename_i h
      simp only [Nat.shiftRight_zero, pow_zero, Nat.mul_one, true_and]
      intro h0; omega

end ELC.Float
