import Verif.Ubig.Div
/-! What dropping low digits does to a quotient, exactly. -/
namespace ELC.Ubig
open Spec

/-- The quotient of the leading parts, if it is the right one or one too large. -/
theorem trunc_div_char {x y P : Nat} (hP : 0 < P) (hy : 0 < y / P) (h2 : (x / P) / (y / P) ≤ x / y + 1) :
    (x / P) / (y / P) = x / y + if y ≤ x % y + (x / y + 1) * (y % P) then 1 else 0 := by
  have h1 := trunc_div_ge (x := x) hP hy
  have key : x / y + 1 ≤ (x / P) / (y / P) ↔ y ≤ x % y + (x / y + 1) * (y % P) := by
    rw [Nat.le_div_iff_mul_le hy, Nat.le_div_iff_mul_le hP]
    have e1 : (x / y + 1) * y = (x / y + 1) * (y / P) * P + (x / y + 1) * (y % P) := by
      have e0 : y = y / P * P + y % P := (Nat.div_add_mod' y P).symm
      generalize x / y + 1 = q
      generalize y / P = u at *
      generalize y % P = v at *
      rw [e0]; ring
    have e2 : x = x / y * y + x % y := (Nat.div_add_mod' x y).symm
    have e3 : (x / y + 1) * y = x / y * y + y := by ring
    omega
  split
  · next h => have := key.2 h; omega
  · next h => have := mt key.1 h; omega

theorem endZeros_dvd (w : Nat) (l : List Nat) : (2 ^ w) ^ endZeros l ∣ val w l := ⟨_, val_endZeros w l⟩

theorem mod_pow_of_le {B y m n : Nat} (h : m ≤ n) (hd : B ^ n ∣ y) : y % B ^ n = y % B ^ m := by
  rw [Nat.mod_eq_zero_of_dvd hd, Nat.mod_eq_zero_of_dvd (Nat.dvd_trans (Nat.pow_dvd_pow B h) hd)]

/-- Only `2 * b.length - a.length - 2` of the digits dropped matter: the others are zero. -/
theorem noMod_mod {w : Nat} {a b : List Nat} {n : Nat} (hb : Spec.Digits w b) (h : noMod a b = some n) :
    val w b % (2 ^ w) ^ n = val w b % (2 ^ w) ^ (2 * b.length - a.length - 2) := by
  unfold noMod at h
  have hz := endZeros_dvd w b
  simp only [noModSize, List.length_drop] at h
  split at h
  · cases h
  · next hc =>
    rw [not_or] at hc
    have hbl : 0 < (b.drop (endZeros b)).length := List.length_pos_iff.2 hc.1
    rw [List.length_drop] at hbl
    split at h
    · next hgt =>
      obtain ⟨n', h1, rfl⟩ := Option.map_eq_some_iff.1 h
      obtain ⟨f, hf⟩ : ∃ f, b.length = f + 1 := ⟨b.length - 1, by omega⟩
      rw [hf] at h1
      simp only [noModSize] at h1
      rw [hf] at hgt hc hbl
      generalize hs : f + 1 - endZeros b - (a.length - endZeros b - (f + 1 - endZeros b) + 2) = shr at *
      have hm : endZeros b + shr = 2 * b.length - a.length - 2 := by omega
      have hdd : (b.drop (endZeros b)).drop shr = b.drop (2 * b.length - a.length - 2) := by
        rw [List.drop_drop, hm]
      rw [hf, hs]
      rw [hdd] at h1
      rw [if_neg, if_neg] at h1
      · injection h1 with h1
        rw [← h1, hm, ← hf]
        generalize 2 * b.length - a.length - 2 = m at *
        rw [Nat.pow_add, Nat.mod_mul, ← val_drop w m hb, Nat.mod_eq_zero_of_dvd (endZeros_dvd w (b.drop m))]
        simp
      · simp only [List.length_drop]; omega
      · intro hc'
        rw [if_pos hc'] at h1; cases h1
    · next hgt =>
      injection h with h; subst h
      exact mod_pow_of_le (by omega) hz

/-- The quotient after dropping digits, exactly. -/
theorem noMod_char {w : Nat} {a b : List Nat} (ha : Spec.Digits w a) (hb : Spec.Digits w b)
    (hnz : NoLeadingZero b) (hne : b ≠ []) (hl : b.length ≤ a.length) :
    ∃ n, noMod a b = some n ∧ val w (a.drop n) / val w (b.drop n) = val w a / val w b +
      if val w b ≤ val w a % val w b + (val w a / val w b + 1) * (val w b % (2 ^ w) ^ (2 * b.length - a.length - 2))
      then 1 else 0 := by
  obtain ⟨n, hn, hle⟩ := noMod_spec ha hb hnz hne hl
  obtain ⟨hnb, _⟩ := noModSize_some hn
  refine ⟨n, hn, ?_⟩
  rw [← noMod_mod hb hn]
  have hpos : 0 < val w (b.drop n) := Nat.lt_of_lt_of_le (Nat.pow_pos (pw w))
    (val_pos_of_nlz (nlz_drop n hnz) (drop_ne_nil hnb))
  rw [val_drop w n ha, val_drop w n hb] at *
  exact trunc_div_char (Nat.pow_pos (pw w)) hpos hle

/-- A number divided by a divisor of it is never found too large. -/
theorem dvd_not_over {w : Nat} {a b : List Nat} (ha : Spec.Digits w a) (hnz : NoLeadingZero b) (hne : b ≠ [])
    (hl : b.length ≤ a.length) (hr : val w a % val w b = 0) :
    ¬ val w b ≤ val w a % val w b + (val w a / val w b + 1) * (val w b % (2 ^ w) ^ (2 * b.length - a.length - 2)) := by
  have hbl := List.length_pos_iff.2 hne
  have h1 := val_pos_of_nlz (w := w) hnz hne
  have h0 : 0 < (2 ^ w) ^ (b.length - 1) := Nat.pow_pos (pw w)
  rw [hr, Nat.zero_add, Nat.not_le]
  by_cases hm : 2 * b.length - a.length - 2 = 0
  · rw [hm]; simp [Nat.mod_one]; omega
  · have h2 := Nat.mod_lt (val w b) (Nat.pow_pos (n := 2 * b.length - a.length - 2) (pw w))
    have h3 : val w a / val w b + 1 ≤ (2 ^ w) ^ (a.length - b.length + 1) := by
      apply Nat.succ_le_of_lt
      apply Nat.div_lt_of_lt_mul
      refine Nat.lt_of_lt_of_le (val_lt ha) ?_
      calc (2 ^ w) ^ a.length = (2 ^ w) ^ (b.length - 1) * (2 ^ w) ^ (a.length - b.length + 1) := by
            rw [← pow_add]; congr 1; omega
        _ ≤ _ := Nat.mul_le_mul_right _ h1
    refine Nat.lt_of_lt_of_le ?_ h1
    calc _ ≤ (2 ^ w) ^ (a.length - b.length + 1) * (val w b % (2 ^ w) ^ (2 * b.length - a.length - 2)) :=
          Nat.mul_le_mul_right _ h3
      _ < (2 ^ w) ^ (a.length - b.length + 1) * (2 ^ w) ^ (2 * b.length - a.length - 2) :=
          Nat.mul_lt_mul_of_pos_left h2 (Nat.pow_pos (pw w))
      _ = _ := by rw [← pow_add]; congr 1; omega

theorem fastDiv_char {w : Nat} {cut : Nat → Nat} {a b : List Nat} {y : Nat} (ha : Spec.Digits w a) (hb : Stores w b y)
    (hy : 0 < y) (hl : b.length ≤ a.length) (h32 : a.length ≤ 32) :
    ∃ q, fastDiv w cut a b = some q ∧ Stores w q (val w a / y +
      if y ≤ val w a % y + (val w a / y + 1) * (y % (2 ^ w) ^ (2 * b.length - a.length - 2)) then 1 else 0) := by
  have hne := stores_pos_ne hb hy
  obtain ⟨n, hn, hv⟩ := noMod_char ha hb.1 hb.2 hne hl
  obtain ⟨hnb, _⟩ := noModSize_some hn
  obtain ⟨q', r, e, s, _⟩ := divNoOpt_spec (digits_drop n ha) (digits_drop n hb.1) (nlz_drop n hb.2)
    (drop_ne_nil hnb) (by simp only [List.length_drop]; omega)
  have h32' : (a.drop n).length ≤ divThreshold := by
    simp only [List.length_drop, divThreshold]; omega
  rw [hv, hb.3] at s
  refine ⟨q', ?_, s⟩
  unfold fastDiv
  simp only [hn, Option.bind_eq_bind, Option.bind_some, h32', if_true, e, Option.map_some]

/-- Up to 32 digits the quotient and remainder are delivered exactly if the quotient is not too large. -/
theorem divmodBase_char {w : Nat} {a b : List Nat} {y : Nat} (ha : Spec.Digits w a) (hb : Stores w b y)
    (hy : 0 < y) (hl : b.length ≤ a.length) (h64 : b.length < 64) :
    divmodBase w a b = none ↔
      y ≤ val w a % y + (val w a / y + 1) * (y % (2 ^ w) ^ (2 * b.length - a.length - 2)) := by
  have hne := stores_pos_ne hb hy
  obtain ⟨n, hn, hv⟩ := noMod_char ha hb.1 hb.2 hne hl
  obtain ⟨hnb, _⟩ := noModSize_some hn
  rw [hb.3] at hv
  unfold divmodBase
  simp only [hn, Option.bind_eq_bind, Option.bind_some]
  split
  · next h0 =>
    subst h0
    obtain ⟨q, r, e, _⟩ := divNoOpt_spec ha hb.1 hb.2 hne hl
    rw [e]
    simp only [List.drop_zero, hb.3] at hv
    constructor
    · intro h; cases h
    · intro h; rw [if_pos h] at hv; omega
  · obtain ⟨q, r, e, s, _⟩ := divNoOpt_spec (digits_drop n ha) (digits_drop n hb.1)
      (nlz_drop n hb.2) (drop_ne_nil hnb) (by simp only [List.length_drop]; omega)
    obtain ⟨p, hp⟩ := fastMulAux_small (q.length + b.length) s.1 hb.1 (Or.inr h64)
    have sp := fastMulAux_digits _ s.1 hb.1 hp
    have hp' : mul w q b = some p := hp
    rw [s.3, hv, hb.3] at sp
    simp only [e, hp', Option.bind_some]
    have hdm := Nat.div_add_mod' (val w a) y
    have hlt := Nat.mod_lt (val w a) hy
    constructor
    · intro h
      by_contra hc
      rw [if_neg hc, Nat.add_zero] at sp
      obtain ⟨r', hr', _⟩ := subBase_stores ha rfl sp (Nat.div_mul_le_self _ _)
      rw [hr'] at h; cases h
    · intro h
      rw [if_pos h] at sp
      cases hs : subBase w a p with
      | none => rfl
      | some r' =>
        have := (subBase_some ha sp.1 hs).1
        rw [sp.3, Nat.add_mul, Nat.one_mul] at this
        omega

end ELC.Ubig
