import Verif.Uniform.Model
import Verif.Uniform.Spec
import Verif.Float.Props
/-! Helper lemmas for random floating point numbers. -/
namespace ELC.Uniform
open ELC.Float
open ELC.Float.Spec

variable {I : Info} {f : Format}

theorem kof_pos (h : Agrees I f) : f.p + 126 ≤ Kof f := by
  have := h.large
  unfold Kof
  omega

/-- Powers of two are in the format. -/
theorem ofNat_pow (h : Agrees I f) {w : Nat} (hw : w < f.bias) :
    units f.p (ofNat I (2 ^ w)) = 2 ^ w * one I ∧ ofNat I (2 ^ w) < infinity I ∧
    ofNat I (2 ^ w) = (w + Kof f - f.p + 1) * 2 ^ f.p := by
  have hK := kof_pos h
  have e : 2 ^ w * one I = 1 * 2 ^ (w + Kof f) := by rw [one_eq h, Nat.one_mul, pow_add]
  have hp1 : 1 < 2 ^ (f.p + 1) := Nat.one_lt_two_pow (by omega)
  have he : units f.p (trunc f.p (2 ^ w * one I)) = 2 ^ w * one I := by
    rw [e]
    exact trunc_exact hp1
  have hlt : trunc f.p (2 ^ w * one I) < infinity I := by
    apply lt_infinity h
    rw [he]
    exact Nat.mul_lt_mul_of_pos_right (Nat.pow_lt_pow_right (by decide) (by omega)) (one_pos h)
  have ht : ofNat I (2 ^ w) = trunc f.p (2 ^ w * one I) := by
    unfold ofNat
    have := nearest_exact h (y := 1) Nat.one_pos hlt.le
    rwa [Nat.one_mul, he] at this
  rw [ht]
  refine ⟨he, hlt, ?_⟩
  rw [e, Nat.one_mul]
  unfold trunc
  rw [Nat.log2_two_pow, Nat.pow_div (by omega) (by decide)]
  rw [show w + Kof f - (w + Kof f - f.p) = f.p by omega]
  rw [Nat.add_mul, Nat.one_mul]

/-- The number before a power of two. -/
theorem units_before (h : Agrees I f) {w : Nat} (hw : w < f.bias) :
    units f.p (ofNat I (2 ^ w) - 1) + 2 ^ (w + Kof f - f.p - 1) = 2 ^ w * one I ∧
    0 < ofNat I (2 ^ w) ∧ ofNat I (2 ^ w) % 2 = 0 := by
  obtain ⟨h1, h2, h3⟩ := ofNat_pow h hw
  have hK := kof_pos h
  have hp := Nat.two_pow_pos f.p
  have hpos : 0 < ofNat I (2 ^ w) := by
    rw [h3]
    exact Nat.mul_pos (by omega) hp
  refine ⟨?_, hpos, ?_⟩
  · have := units_succ f.p (ofNat I (2 ^ w) - 1)
    rw [Nat.sub_add_cancel hpos, h1] at this
    rw [this]
    congr 2
    have hd : (ofNat I (2 ^ w) - 1) / 2 ^ f.p = w + Kof f - f.p := by
      rw [h3, Nat.add_mul, Nat.one_mul]
      rw [Nat.add_sub_assoc hp, Nat.add_comm, Nat.add_mul_div_right _ _ hp, Nat.div_eq_of_lt (by omega)]
      omega
    rw [hd]
  · rw [h3]
    have := h.large
    obtain ⟨k, hk⟩ : ∃ k, f.p = k + 1 := ⟨f.p - 1, by omega⟩
    rw [hk, pow_succ, ← Nat.mul_assoc, Nat.mul_mod_left]

/-- Which integers are rounded to a power of two from below. -/
theorem ofNat_lt_iff (h : Agrees I f) {w n : Nat} (hw : w < f.bias) (hp : f.p + 2 ≤ w) (hn : n ≤ 2 ^ w) :
    ofNat I n < ofNat I (2 ^ w) ↔ n < 2 ^ w - 2 ^ (w - f.p - 2) := by
  obtain ⟨h1, h2, _⟩ := ofNat_pow h hw
  obtain ⟨b1, b2, b3⟩ := units_before h hw
  have hK := kof_pos h
  have ho := one_pos h
  have hle : ofNat I n ≤ ofNat I (2 ^ w) := nearest_le h Nat.one_pos (by rw [h1, Nat.one_mul]; exact Nat.mul_le_mul_right _ hn)
  have hinf : nearest I (n * one I) 1 < infinity I := Nat.lt_of_le_of_lt hle h2
  obtain ⟨r, c1, c2, c3⟩ := nearest_cases h Nat.one_pos hinf
  rw [Nat.one_mul] at c1 c2
  simp only [Nat.one_mul] at c3
  -- the middle
  have hmid : 2 ^ (w + Kof f - f.p - 1) = 2 * (2 ^ (w - f.p - 2) * one I) := by
    rw [one_eq h, ← pow_add, ← pow_succ']
    congr 1
    omega
  have hsub : (2 ^ w - 2 ^ (w - f.p - 2)) * one I = 2 ^ w * one I - 2 ^ (w - f.p - 2) * one I := Nat.sub_mul _ _ _
  have hcmp : n < 2 ^ w - 2 ^ (w - f.p - 2) ↔ 2 * (n * one I) < units f.p (ofNat I (2 ^ w) - 1) + units f.p (ofNat I (2 ^ w)) := by
    rw [← Nat.mul_lt_mul_right (a := one I) ho, hsub, h1]
    rw [hmid] at b1
    omega
  rw [hcmp]
  have hdef : ofNat I n = nearest I (n * one I) 1 := rfl
  constructor
  · intro hlt
    by_contra hc
    have hge : units f.p (ofNat I (2 ^ w) - 1) ≤ n * one I := by rw [h1] at hc; omega
    have hr1 : ofNat I (2 ^ w) - 1 < r + 1 := by
      apply Nat.lt_of_not_le
      intro hcon
      have := units_le (p := f.p) hcon
      omega
    rcases c3 with ⟨d1, d2, d3⟩ | ⟨d1, d2, d3⟩
    · have hr : r = ofNat I (2 ^ w) - 1 := by omega
      rw [hr, Nat.sub_add_cancel b2] at d2 d3
      have := d3 (by omega)
      omega
    · omega
  · intro hlt
    by_contra hc
    have heq : ofNat I n = ofNat I (2 ^ w) := by omega
    rcases c3 with ⟨d1, d2, d3⟩ | ⟨d1, d2, d3⟩
    · have hr : r = ofNat I (2 ^ w) := by omega
      rw [hr, h1] at c1
      rw [h1] at hlt
      omega
    · have hr : r = ofNat I (2 ^ w) - 1 := by omega
      rw [hr, Nat.sub_add_cancel b2] at d2
      omega

/-- Division of a rounded integer by a power of two is exact. -/
theorem fdiv_pow (h : Agrees I f) {w n : Nat} (hw : w < f.bias) (hn : n ≤ 2 ^ w) :
    units f.p (fdiv I (ofNat I n) (ofNat I (2 ^ w))) * 2 ^ w = units f.p (ofNat I n) ∧
    fdiv I (ofNat I n) (ofNat I (2 ^ w)) < infinity I := by
  obtain ⟨h1, h2, _⟩ := ofNat_pow h hw
  have ho := one_pos h
  have hK := kof_pos h
  have hle : ofNat I n ≤ ofNat I (2 ^ w) := nearest_le h Nat.one_pos (by rw [h1, Nat.one_mul]; exact Nat.mul_le_mul_right _ hn)
  have hU : units f.p (ofNat I n) ≤ 2 ^ w * one I := by rw [← h1]; exact units_le hle
  obtain ⟨c, hc⟩ : ∃ c, units f.p c * 2 ^ w = units f.p (ofNat I n) := by
    by_cases hz : n = 0
    · refine ⟨0, ?_⟩
      have : ofNat I n = 0 := by
        have : ofNat I n ≤ 0 := nearest_le h Nat.one_pos (by rw [hz]; simp)
        omega
      rw [this, units_zero, Nat.zero_mul]
    · have hge : one I ≤ units f.p (ofNat I n) := by
        have h0 := ofNat_pow h (w := 0) (by omega)
        rw [pow_zero, Nat.one_mul] at h0
        rw [← h0.1]
        apply units_le
        apply nearest_ge h Nat.one_pos _ h0.2.1.le
        rw [h0.1, Nat.one_mul]
        exact Nat.le_mul_of_pos_left _ (by omega)
      obtain ⟨m, m1, m2⟩ := units_form f.p (ofNat I n)
      generalize ofNat I n / 2 ^ f.p - 1 = t at m2
      have ht : w ≤ t := by
        by_contra hcon
        have : m * 2 ^ t < 2 ^ (f.p + 1) * 2 ^ (w - 1) := by
          calc m * 2 ^ t ≤ m * 2 ^ (w - 1) := Nat.mul_le_mul_left _ (Nat.pow_le_pow_right (by decide) (by omega))
            _ < _ := Nat.mul_lt_mul_of_pos_right m1 (Nat.two_pow_pos _)
        rw [← m2, ← pow_add] at this
        have h5 : 2 ^ (f.p + 1 + (w - 1)) ≤ one I := by
          rw [one_eq h]
          apply Nat.pow_le_pow_right (by decide)
          unfold Kof
          omega
        omega
      refine ⟨trunc f.p (m * 2 ^ (t - w)), ?_⟩
      rw [trunc_exact m1, Nat.mul_assoc, ← pow_add, Nat.sub_add_cancel ht, m2]
  have hcu : units f.p c ≤ one I := by
    have : units f.p c * 2 ^ w ≤ one I * 2 ^ w := by rw [hc, Nat.mul_comm (one I)]; exact hU
    exact Nat.le_of_mul_le_mul_right this (Nat.two_pow_pos w)
  have hci : c < infinity I := by
    apply lt_infinity h
    have : 1 * one I < 2 ^ (f.bias + 1) * one I := Nat.mul_lt_mul_of_pos_right (Nat.one_lt_two_pow (by omega)) ho
    omega
  have hfd : fdiv I (ofNat I n) (ofNat I (2 ^ w)) = c := by
    unfold fdiv
    rw [h.bit, h1, ← hc]
    have e : units f.p c * 2 ^ w * one I = (2 ^ w * one I) * units f.p c := by ring
    rw [e]
    exact nearest_exact h (Nat.mul_pos (Nat.two_pow_pos w) ho) hci.le
  rw [hfd]
  exact ⟨hc, hci⟩

theorem plain_of_lt (h : Agrees I f) {d : Nat} (hd : d < infinity I) : Plain f d := by
  rw [plain_iff h, ← infinity_eq h]
  exact hd

theorem lt_of_plain (h : Agrees I f) {d : Nat} (hd : Plain f d) : d < infinity I := by
  rw [plain_iff h, ← infinity_eq h] at hd
  exact hd

/-- The number denoted, in units. -/
theorem value_units (h : Agrees I f) (x : Signed) (hx : Plain f x.mag) :
    Spec.value f x.neg x.mag = (x.units I : ℚ) / one I := by
  unfold Spec.value Signed.units
  rw [magnitude_one h _ hx.1, h.bit]
  split
  · push_cast
    rw [neg_div]
  · push_cast
    rfl

theorem round_ge (h : Agrees I f) {a : Signed} (ha : Plain f a.mag) {x : Int} (hx : a.units I ≤ x) :
    a.units I ≤ (round I x).units I := by
  have hai := (lt_of_plain h ha).le
  unfold Signed.units at hx ⊢
  unfold round
  rw [h.bit] at *
  dsimp only
  by_cases hneg : x < 0
  · rw [if_pos (show decide (x < 0) = true by simpa using hneg)]
    by_cases han : a.neg = true
    · rw [if_pos han] at hx ⊢
      have : nearest I x.natAbs 1 ≤ a.mag := nearest_le h Nat.one_pos (by omega)
      have := units_le (p := f.p) this
      omega
    · rw [if_neg han] at hx
      omega
  · rw [if_neg (show ¬ decide (x < 0) = true by simpa using hneg)]
    by_cases han : a.neg = true
    · rw [if_pos han]
      omega
    · rw [if_neg han] at hx ⊢
      have : a.mag ≤ nearest I x.natAbs 1 := nearest_ge h Nat.one_pos (by omega) hai
      have := units_le (p := f.p) this
      omega

theorem round_le (h : Agrees I f) {a : Signed} (ha : Plain f a.mag) {x : Int} (hx : x ≤ a.units I) :
    (round I x).units I ≤ a.units I := by
  have hai := (lt_of_plain h ha).le
  unfold Signed.units at hx ⊢
  unfold round
  rw [h.bit] at *
  dsimp only
  by_cases hneg : x < 0
  · rw [if_pos (by simpa using hneg)]
    by_cases han : a.neg = true
    · rw [if_pos han] at hx ⊢
      have : a.mag ≤ nearest I x.natAbs 1 := nearest_ge h Nat.one_pos (by omega) hai
      have := units_le (p := f.p) this
      omega
    · rw [if_neg han]
      omega
  · rw [if_neg (by simpa using hneg)]
    by_cases han : a.neg = true
    · rw [if_pos han] at hx ⊢
      have hx0 : x = 0 := by omega
      have : nearest I x.natAbs 1 ≤ 0 := nearest_le h Nat.one_pos (by rw [hx0]; simp)
      have := units_le (p := f.p) this
      rw [units_zero] at this
      omega
    · rw [if_neg han] at hx ⊢
      have : nearest I x.natAbs 1 ≤ a.mag := nearest_le h Nat.one_pos (by omega)
      have := units_le (p := f.p) this
      omega

/-- Between two finite numbers, rounding gives a finite one. -/
theorem round_finite (h : Agrees I f) {a b : Signed} (ha : Plain f a.mag) (hb : Plain f b.mag) {x : Int}
    (h1 : a.units I ≤ x) (h2 : x ≤ b.units I) : Plain f (round I x).mag := by
  apply plain_of_lt h
  unfold Signed.units at h1 h2
  rw [h.bit] at h1 h2
  unfold round
  dsimp only
  by_cases hneg : x < 0
  · have : nearest I x.natAbs 1 ≤ a.mag := by
      apply nearest_le h Nat.one_pos
      split at h1 <;> omega
    exact Nat.lt_of_le_of_lt this (lt_of_plain h ha)
  · have : nearest I x.natAbs 1 ≤ b.mag := by
      apply nearest_le h Nat.one_pos
      split at h2 <;> omega
    exact Nat.lt_of_le_of_lt this (lt_of_plain h hb)

end ELC.Uniform
