import Verif.Sqrt.Step
import Mathlib.Data.Nat.Prime.Basic
import Mathlib.Algebra.Order.Ring.Nat
import Mathlib.Data.Nat.GCD.Basic
/-! The iteration does not go back and forth between the two numbers around the root. -/
namespace ELC.Sqrt

open ELC.Float ELC.Float.Spec

variable {I : Info} {f : Format} {v lo x : Nat}

/-- Where the next number has the same spacing. -/
theorem sp_succ_of_odd (h : Agrees I f) {a : Nat} (ha : (a + 1) % 2 = 1) : sp f.p (a + 1) = sp f.p a := by
  have hp := two_le_pow h
  have he := even_pow h
  unfold sp
  have h1 : (a + 1) / 2 ^ f.p = a / 2 ^ f.p := by
    rw [Nat.succ_div, if_neg]
    · rfl
    · intro hd
      obtain ⟨k, hk⟩ := hd
      have : (2 ^ f.p * k) % 2 = 0 := by rw [Nat.mul_mod, he]; simp
      omega
  rw [h1]

/-- The square units of a number are divisible by much. -/
theorem square_dvd (h : Agrees I f) {lo : Nat} (hn : 2 ^ f.p ≤ lo) (hb : units f.p lo * units f.p lo ≤ units f.p v * one I) :
    2 ^ f.p * (sp f.p lo * sp f.p lo) ∣ units f.p v * one I := by
  obtain ⟨m, hm, hv⟩ := units_form f.p v
  rw [hv, one_eq h] at hb ⊢
  have hL := sp_le_units hn
  have h1 := Nat.le_trans (Nat.mul_le_mul hL hL) hb
  unfold sp at h1 ⊢
  generalize v / 2 ^ f.p - 1 = a at *
  generalize lo / 2 ^ f.p - 1 = e at *
  have e1 : m * 2 ^ a * 2 ^ Kof f = m * 2 ^ (a + Kof f) := by rw [pow_add]; ring
  have e2 : 2 ^ f.p * 2 ^ e * (2 ^ f.p * 2 ^ e) = 2 ^ (f.p + e + f.p + e) := by rw [pow_add, pow_add, pow_add]; ring
  have e3 : 2 ^ f.p * (2 ^ e * 2 ^ e) = 2 ^ (f.p + e + e) := by rw [pow_add, pow_add]; ring
  rw [e1, e2] at h1
  rw [e1, e3]
  have h2 : 2 ^ (f.p + e + f.p + e) < 2 ^ (f.p + 1 + (a + Kof f)) := by
    rw [pow_add 2 (f.p + 1)]
    exact Nat.lt_of_le_of_lt h1 (Nat.mul_lt_mul_of_pos_right hm (Nat.two_pow_pos _))
  have h3 := (Nat.pow_lt_pow_iff_right (by decide : 1 < 2)).1 h2
  exact Dvd.dvd.mul_left (pow_dvd_pow 2 (by omega)) _

/-- The window left for going back and forth has nothing in it. -/
theorem window {p k s w : Nat} (hk0 : 0 < k) (hk1 : k < 2 ^ p) (hs : 0 < s)
    (lower : 2 * k * s * (2 * k * s + s + (2 * k * s + s + s)) ≤ 2 * (2 ^ p * (s * s) * w))
    (upper : 2 * (2 ^ p * (s * s) * w) ≤ (2 * k * s + s) * (2 * k * s + (2 * k * s + s))) : False := by
  have hss : 0 < s * s := Nat.mul_pos hs hs
  have e1 : 2 * k * s * (2 * k * s + s + (2 * k * s + s + s)) = 2 * (k * (4 * k + 3)) * (s * s) := by ring
  have e2 : 2 * (2 ^ p * (s * s) * w) = 2 * (2 ^ p * w) * (s * s) := by ring
  have e3 : (2 * k * s + s) * (2 * k * s + (2 * k * s + s)) = (2 * (k * (4 * k + 3)) + 1) * (s * s) := by ring
  rw [e1, e2] at lower
  rw [e2, e3] at upper
  have l1 := Nat.le_of_mul_le_mul_right lower hss
  have l2 := Nat.le_of_mul_le_mul_right upper hss
  have e7 : 2 ^ p * w = k * (4 * k + 3) := by omega
  have hcop : Nat.Coprime (2 ^ p) (4 * k + 3) := by
    apply Nat.Coprime.pow_left
    rw [Nat.coprime_two_left, Nat.odd_iff]
    omega
  have hd : 2 ^ p ∣ k := hcop.dvd_of_dvd_mul_right ⟨w, e7.symm⟩
  have := Nat.le_of_dvd hk0 hd
  omega

/-- There is no way back from the next number to `lo`. -/
theorem no_cycle (h : Agrees I f) (ha : Around I f (units f.p v * one I) lo)
    (h1 : fadd I lo (quot I v lo) = lo + 1 + 2 ^ f.p) (h2 : fadd I (lo + 1) (quot I v (lo + 1)) = lo + 2 ^ f.p) : False := by
  have hn := ha.normal
  have hroom := ha.room
  have hp := two_le_pow h
  have hep := even_pow h
  have hLp := units_lo_pos h ha
  have hs := sp_lo_le h ha
  have hspos := sp_pos f.p lo
  have eH : units f.p (lo + 1) = units f.p lo + sp f.p lo := units_sp _ _
  have eH2 : units f.p (lo + 2) = units f.p (lo + 1) + sp f.p (lo + 1) := units_sp _ _
  have mH : sp f.p lo ≤ sp f.p (lo + 1) := sp_mono (by omega)
  have hHp : 0 < units f.p (lo + 1) := by omega
  have dL : units f.p (lo + 2 ^ f.p) = 2 * units f.p lo := units_double (by omega)
  have dH : units f.p (lo + 1 + 2 ^ f.p) = 2 * units f.p (lo + 1) := units_double (by omega)
  rw [sum_eq h] at h1 h2
  -- from `lo` up
  obtain ⟨u1, u2⟩ := (nearest_mid h Nat.one_pos (x := units f.p lo + units f.p (quot I v lo)) (by omega)).2.2 (lo + 2 ^ f.p) (by omega)
  rw [show lo + 2 ^ f.p + 1 = lo + 1 + 2 ^ f.p by omega, dL, dH, Nat.one_mul] at u1 u2
  -- and down again
  obtain ⟨d1, d2, _⟩ := nearest_mid h Nat.one_pos (x := units f.p (lo + 1) + units f.p (quot I v (lo + 1))) (by omega)
  rw [h2, show lo + 2 ^ f.p + 1 = lo + 1 + 2 ^ f.p by omega, dL, dH, Nat.one_mul] at d1 d2
  have y1 : lo + 1 ≤ quot I v lo := (units_le_iff (p := f.p)).1 (by omega)
  have y2 : quot I v (lo + 1) ≤ lo := (units_le_iff (p := f.p)).1 (by omega)
  have p1 : quot I v lo = lo + 1 → lo % 2 = 1 := fun e => by rw [e] at u2; have := u2 (by omega); omega
  have p2 : quot I v (lo + 1) = lo → lo % 2 = 0 := fun e => by rw [e] at d2; have := d2 (by omega); omega
  -- what the quotients say about `v`
  have q1 : quot I v lo = nearest I (units f.p v * one I) (units f.p lo) := quot_eq h
  have q2 : quot I v (lo + 1) = nearest I (units f.p v * one I) (units f.p (lo + 1)) := quot_eq h
  have hq1 := quot_lo_le h ha
  obtain ⟨b, hb⟩ : ∃ b, lo = b + 1 := ⟨lo - 1, by omega⟩
  have eL : units f.p lo = units f.p b + sp f.p b := by rw [hb, units_sp]
  have mL : sp f.p b ≤ sp f.p lo := sp_mono (by omega)
  have hb0 := sp_pos f.p b
  by_cases c1 : quot I v lo = lo + 1
  · have ho := p1 c1
    have hsb : sp f.p lo = sp f.p b := by rw [hb]; exact sp_succ_of_odd h (by omega)
    have lower : units f.p lo * (units f.p lo + units f.p (lo + 1)) ≤ 2 * (units f.p v * one I) := by
      have := ((nearest_mid h hLp (x := units f.p v * one I) (by omega)).2.2 lo (by omega)).1
      exact this
    have c2 : quot I v (lo + 1) ≤ b := by
      by_contra hc
      have := p2 (by omega)
      omega
    have upper : 2 * (units f.p v * one I) ≤ units f.p (lo + 1) * (units f.p b + units f.p lo) := by
      by_contra hc
      have := nearest_up h hHp (c := b) (x := units f.p v * one I) (by omega) (by rw [← hb]; omega)
      omega
    rw [eH] at upper lower
    have e5 : units f.p b = units f.p lo - sp f.p lo := by omega
    rw [e5] at upper
    generalize units f.p lo = L at *
    generalize sp f.p lo = s at *
    obtain ⟨t, ht⟩ : ∃ t, L = s + t := ⟨L - s, by omega⟩
    subst ht
    rw [show s + t - s = t by omega] at upper
    have : 0 < s * s := Nat.mul_pos hspos hspos
    nlinarith
  · have c1' : lo + 2 ≤ quot I v lo := by omega
    have lower : units f.p lo * (units f.p (lo + 1) + units f.p (lo + 2)) ≤ 2 * (units f.p v * one I) := by
      have := ((nearest_mid h hLp (x := units f.p v * one I) (by omega)).2.2 (lo + 1) (by omega)).1
      exact this
    by_cases c2 : quot I v (lo + 1) = lo
    · have ho := p2 c2
      have hsn : sp f.p (lo + 1) = sp f.p lo := sp_succ_of_odd h (by omega)
      have upper : 2 * (units f.p v * one I) ≤ units f.p (lo + 1) * (units f.p lo + units f.p (lo + 1)) := by
        have := (nearest_mid h hHp (x := units f.p v * one I) (by omega)).1
        rw [← q2, c2] at this
        exact this
      obtain ⟨w, hw⟩ := square_dvd h (lo := lo) (v := v) (by omega) ha.below
      rw [eH2, eH, hsn] at lower
      rw [eH] at upper
      have hm := units_normal (p := f.p) (x := lo) (by omega)
      have hlt := Nat.mod_lt lo (Nat.two_pow_pos f.p)
      have hpar : lo % 2 ^ f.p % 2 = 0 := by
        rw [Nat.mod_mod_of_dvd _ (Nat.dvd_of_mod_eq_zero hep)]; exact ho
      obtain ⟨k, hk⟩ : ∃ k, 2 ^ f.p + lo % 2 ^ f.p = 2 * k := ⟨(2 ^ f.p + lo % 2 ^ f.p) / 2, by omega⟩
      rw [hk] at hm
      rw [hw, hm] at lower upper
      have hk1 : k < 2 ^ f.p := by omega
      have hk0 : 0 < k := by omega
      exact window hk0 hk1 hspos lower upper
    · have c2' : quot I v (lo + 1) ≤ b := by omega
      have upper : 2 * (units f.p v * one I) ≤ units f.p (lo + 1) * (units f.p b + units f.p lo) := by
        by_contra hc
        have := nearest_up h hHp (c := b) (x := units f.p v * one I) (by omega) (by rw [← hb]; omega)
        omega
      have g1 : 2 * units f.p lo + 3 * sp f.p lo ≤ units f.p (lo + 1) + units f.p (lo + 2) := by omega
      have g2 := Nat.le_trans (Nat.mul_le_mul_left (units f.p lo) g1) lower
      have g3 : units f.p b + units f.p lo ≤ 2 * units f.p lo := by omega
      have g4 := Nat.le_trans upper (Nat.mul_le_mul_left (units f.p (lo + 1)) g3)
      rw [eH] at g4
      have g5 := Nat.le_trans g2 g4
      have e8 : units f.p lo * (2 * units f.p lo + 3 * sp f.p lo) = 2 * (units f.p lo * units f.p lo) + 3 * (units f.p lo * sp f.p lo) := by ring
      have e9 : (units f.p lo + sp f.p lo) * (2 * units f.p lo) = 2 * (units f.p lo * units f.p lo) + 2 * (units f.p lo * sp f.p lo) := by ring
      rw [e8, e9] at g5
      have := Nat.mul_pos hLp hspos
      omega

end ELC.Sqrt
