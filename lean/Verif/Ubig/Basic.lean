import Verif.Ubig.Model
import Verif.Ubig.Spec
import Mathlib.Tactic.Ring
import Mathlib.Tactic.Linarith

/-! Basic facts about digit arrays, carries, shrinking and comparison. -/
namespace ELC.Ubig
open Spec (val NoLeadingZero Stores)

theorem pw (w : Nat) : 0 < 2 ^ w := Nat.two_pow_pos w

theorem digits_nil (w : Nat) : Spec.Digits w [] := by intro d hd; cases hd

theorem digits_cons {w x : Nat} {l : List Nat} :
    Spec.Digits w (x :: l) ↔ x < 2 ^ w ∧ Spec.Digits w l := by
  simp [Spec.Digits]

theorem digits_append {w : Nat} {a b : List Nat} :
    Spec.Digits w (a ++ b) ↔ Spec.Digits w a ∧ Spec.Digits w b := by
  simp only [Spec.Digits, List.mem_append]
  constructor
  · intro h; exact ⟨fun d hd => h d (Or.inl hd), fun d hd => h d (Or.inr hd)⟩
  · rintro ⟨h1, h2⟩ d (hd | hd); exacts [h1 d hd, h2 d hd]

theorem digits_replicate_zero (w n : Nat) : Spec.Digits w (List.replicate n 0) := by
  intro d hd
  rw [(List.mem_replicate.1 hd).2]; exact pw w

theorem digits_take {w : Nat} {a : List Nat} (n : Nat) (h : Spec.Digits w a) :
    Spec.Digits w (a.take n) := fun d hd => h d (List.mem_of_mem_take hd)

theorem digits_drop {w : Nat} {a : List Nat} (n : Nat) (h : Spec.Digits w a) :
    Spec.Digits w (a.drop n) := fun d hd => h d (List.mem_of_mem_drop hd)

theorem val_append (w : Nat) (a b : List Nat) :
    val w (a ++ b) = val w a + (2 ^ w) ^ a.length * val w b := by
  induction a with
  | nil => simp [val]
  | cons x a ih => simp only [List.cons_append, val, ih, List.length_cons, pow_succ]; ring

theorem val_replicate_zero (w n : Nat) : val w (List.replicate n 0) = 0 := by
  induction n with
  | zero => rfl
  | succ n ih => simp [List.replicate_succ, val, ih]

theorem val_lt {w : Nat} {l : List Nat} (h : Spec.Digits w l) : val w l < (2 ^ w) ^ l.length := by
  induction l with
  | nil => simp [val]
  | cons x l ih =>
    rw [digits_cons] at h
    have := ih h.2
    simp only [val, List.length_cons, pow_succ]
    calc x + 2 ^ w * val w l < 2 ^ w + 2 ^ w * val w l := by omega
      _ = 2 ^ w * (val w l + 1) := by ring
      _ ≤ 2 ^ w * (2 ^ w) ^ l.length := Nat.mul_le_mul_left _ this
      _ = _ := by ring

theorem val_take_drop (w : Nat) (l : List Nat) (n : Nat) (h : n ≤ l.length) :
    val w l = val w (l.take n) + (2 ^ w) ^ n * val w (l.drop n) := by
  conv_lhs => rw [← List.take_append_drop n l]
  rw [val_append, List.length_take, Nat.min_eq_left h]

theorem val_drop (w : Nat) {l : List Nat} (n : Nat) (hd : Spec.Digits w l) :
    val w (l.drop n) = val w l / (2 ^ w) ^ n := by
  by_cases h : n ≤ l.length
  · have h1 := val_take_drop w l n h
    have h2 : val w (l.take n) < (2 ^ w) ^ n := by
      have := val_lt (digits_take n hd)
      rwa [List.length_take, Nat.min_eq_left h] at this
    rw [h1, Nat.add_mul_div_left _ _ (Nat.pow_pos (pw w)), Nat.div_eq_of_lt h2, Nat.zero_add]
  · rw [List.drop_eq_nil_of_le (by omega)]
    rw [Nat.div_eq_of_lt]; · rfl
    exact Nat.lt_of_lt_of_le (val_lt hd) (Nat.pow_le_pow_right (pw w) (by omega))

/-! ### shrinking -/

theorem val_shrink (w : Nat) (l : List Nat) : val w (shrink l) = val w l := by
  induction l with
  | nil => rfl
  | cons x l ih =>
    simp only [shrink]
    split
    · next h =>
      rw [h] at ih
      simp only [val] at ih
      split
      · next hx => simp [val, hx, ← ih]
      · simp [val, ← ih]
    · next y l' h => rw [h] at ih; simp only [val] at ih ⊢; rw [ih]

theorem digits_shrink {w : Nat} {l : List Nat} (h : Spec.Digits w l) : Spec.Digits w (shrink l) := by
  induction l with
  | nil => exact h
  | cons x l ih =>
    rw [digits_cons] at h
    have ih := ih h.2
    simp only [shrink]
    split
    · split
      · exact digits_nil w
      · exact digits_cons.2 ⟨h.1, digits_nil w⟩
    · next y l' he => rw [he] at ih; exact digits_cons.2 ⟨h.1, ih⟩

theorem nlz_nil : NoLeadingZero [] := by intro d hd; simp at hd

theorem nlz_singleton {x : Nat} (h : x ≠ 0) : NoLeadingZero [x] := by
  intro d hd; simp at hd; omega

theorem nlz_cons_cons {x y : Nat} {l : List Nat} :
    NoLeadingZero (x :: y :: l) ↔ NoLeadingZero (y :: l) := by
  simp [NoLeadingZero, List.getLast?_cons_cons]

theorem nlz_append {a b : List Nat} (hb : b ≠ []) :
    NoLeadingZero (a ++ b) ↔ NoLeadingZero b := by
  cases b with
  | nil => exact absurd rfl hb
  | cons y b => simp [NoLeadingZero, List.getLast?_append]

theorem nlz_shrink (l : List Nat) : NoLeadingZero (shrink l) := by
  induction l with
  | nil => exact nlz_nil
  | cons x l ih =>
    simp only [shrink]
    split
    · split
      · exact nlz_nil
      · next h => exact nlz_singleton h
    · next y l' he => rw [he] at ih; exact nlz_cons_cons.2 ih

theorem nlz_tail {x : Nat} {l : List Nat} (h : NoLeadingZero (x :: l)) : NoLeadingZero l := by
  cases l with
  | nil => exact nlz_nil
  | cons y l => exact nlz_cons_cons.1 h

theorem shrink_of_nlz {l : List Nat} (h : NoLeadingZero l) : shrink l = l := by
  induction l with
  | nil => rfl
  | cons x l ih =>
    have ih := ih (nlz_tail h)
    simp only [shrink]
    cases l with
    | nil =>
      have : x ≠ 0 := h x rfl
      simp [shrink, this]
    | cons y l => rw [ih]

theorem stores_shrink {w : Nat} {l : List Nat} {v : Nat} (h : Spec.Digits w l) (hv : val w l = v) :
    Stores w (shrink l) v := ⟨digits_shrink h, nlz_shrink l, by rw [val_shrink, hv]⟩

theorem shrink_length_le (l : List Nat) : (shrink l).length ≤ l.length := by
  induction l with
  | nil => simp [shrink]
  | cons x l ih =>
    simp only [shrink]
    split
    · split <;> simp
    · next y l' he => rw [he] at ih; simpa using ih

theorem val_pos_of_nlz {w : Nat} {l : List Nat} (h : NoLeadingZero l) (hne : l ≠ []) :
    (2 ^ w) ^ (l.length - 1) ≤ val w l := by
  induction l with
  | nil => exact absurd rfl hne
  | cons x l ih =>
    cases l with
    | nil =>
      have : x ≠ 0 := h x rfl
      simp [val]; omega
    | cons y l =>
      have ih := ih (nlz_tail h) (by simp)
      simp only [List.length_cons, Nat.add_sub_cancel] at ih ⊢
      simp only [val] at ih ⊢
      rw [pow_succ]
      calc (2 ^ w) ^ l.length * 2 ^ w = 2 ^ w * (2 ^ w) ^ l.length := by ring
        _ ≤ 2 ^ w * (y + 2 ^ w * val w l) := Nat.mul_le_mul_left _ ih
        _ ≤ _ := Nat.le_add_left _ _

theorem eq_nil_of_val_zero {w : Nat} {l : List Nat} (h : NoLeadingZero l) (hv : val w l = 0) :
    l = [] := by
  by_contra hne
  have := val_pos_of_nlz (w := w) h hne
  have := Nat.pow_pos (n := l.length - 1) (pw w)
  omega

theorem stores_nil (w : Nat) : Stores w [] 0 := ⟨digits_nil w, nlz_nil, rfl⟩

theorem length_lt_of_val_lt {w : Nat} {a b : List Nat} (ha : Spec.Digits w a)
    (hb : NoLeadingZero b) (h : a.length < b.length) : val w a < val w b := by
  have h1 := val_lt ha
  have h2 := val_pos_of_nlz (w := w) hb (by rintro rfl; simp at h)
  have : (2 ^ w) ^ a.length ≤ (2 ^ w) ^ (b.length - 1) := Nat.pow_le_pow_right (pw w) (by omega)
  omega

/-- A number of at most `n` digits. -/
theorem length_le_of_val_lt {w : Nat} {l : List Nat} {n : Nat} (h : NoLeadingZero l)
    (hv : val w l < (2 ^ w) ^ n) : l.length ≤ n := by
  by_contra hc
  have h2 := val_pos_of_nlz (w := w) h (by rintro rfl; simp at hc)
  have : (2 ^ w) ^ n ≤ (2 ^ w) ^ (l.length - 1) := Nat.pow_le_pow_right (pw w) (by omega)
  omega

theorem val_inj {w : Nat} {a b : List Nat} (ha : Spec.Digits w a) (hb : Spec.Digits w b)
    (hl : a.length = b.length) (h : val w a = val w b) : a = b := by
  induction a generalizing b with
  | nil => cases b with
    | nil => rfl
    | cons y b => simp at hl
  | cons x a ih =>
    cases b with
    | nil => simp at hl
    | cons y b =>
      rw [digits_cons] at ha hb
      simp only [val] at h
      have h1 : x = y := by
        have := congrArg (· % 2 ^ w) h
        simpa [Nat.add_mul_mod_self_left, Nat.mod_eq_of_lt ha.1, Nat.mod_eq_of_lt hb.1] using this
      subst h1
      have h2 : val w a = val w b := Nat.eq_of_mul_eq_mul_left (pw w) (by omega)
      rw [ih ha.2 hb.2 (by simpa using hl) h2]

theorem stores_unique {w : Nat} {a b : List Nat} {v : Nat} (ha : Stores w a v)
    (hb : Stores w b v) : a = b := by
  apply val_inj ha.1 hb.1 _ (by rw [ha.3, hb.3])
  rcases Nat.lt_trichotomy a.length b.length with h | h | h
  · have := length_lt_of_val_lt ha.1 hb.2 h; rw [ha.3, hb.3] at this; omega
  · exact h
  · have := length_lt_of_val_lt hb.1 ha.2 h; rw [ha.3, hb.3] at this; omega

/-! ### comparison -/

theorem cmpDigits_val {w : Nat} {a b : List Nat} (ha : Spec.Digits w a) (hb : Spec.Digits w b)
    (hl : a.length = b.length) : cmpDigits a b = compare (val w a) (val w b) := by
  induction a generalizing b with
  | nil => cases b with
    | nil => simp [cmpDigits, val]
    | cons y b => simp at hl
  | cons x a ih =>
    cases b with
    | nil => simp at hl
    | cons y b =>
      rw [digits_cons] at ha hb
      have ih := ih ha.2 hb.2 (by simpa using hl)
      simp only [cmpDigits, val, ih]
      rcases Nat.lt_trichotomy (val w a) (val w b) with h | h | h
      · rw [Nat.compare_eq_lt.2 h]
        have : x + 2 ^ w * val w a < y + 2 ^ w * val w b := by
          have : 2 ^ w * (val w a + 1) ≤ 2 ^ w * val w b := Nat.mul_le_mul_left _ h
          rw [Nat.mul_add] at this; omega
        rw [Nat.compare_eq_lt.2 this]; rfl
      · rw [h, Nat.compare_eq_eq.2 rfl]
        simp only [Ordering.then]
        rcases Nat.lt_trichotomy x y with h' | h' | h'
        · rw [Nat.compare_eq_lt.2 h', Nat.compare_eq_lt.2 (by omega)]
        · rw [h', Nat.compare_eq_eq.2 rfl, Nat.compare_eq_eq.2 rfl]
        · rw [Nat.compare_eq_gt.2 h', Nat.compare_eq_gt.2 (by omega)]
      · rw [Nat.compare_eq_gt.2 h]
        have : y + 2 ^ w * val w b < x + 2 ^ w * val w a := by
          have : 2 ^ w * (val w b + 1) ≤ 2 ^ w * val w a := Nat.mul_le_mul_left _ h
          rw [Nat.mul_add] at this; omega
        rw [Nat.compare_eq_gt.2 this]; rfl

theorem cmp_val {w : Nat} {a b : List Nat} {x y : Nat} (ha : Stores w a x)
    (hb : Stores w b y) : cmp a b = compare x y := by
  unfold cmp
  rcases Nat.lt_trichotomy a.length b.length with h | h | h
  · have := length_lt_of_val_lt ha.1 hb.2 h
    rw [ha.3, hb.3] at this
    rw [Nat.compare_eq_lt.2 h, Nat.compare_eq_lt.2 this]; rfl
  · rw [Nat.compare_eq_eq.2 h, cmpDigits_val ha.1 hb.1 h, ha.3, hb.3]; rfl
  · have := length_lt_of_val_lt hb.1 ha.2 h
    rw [ha.3, hb.3] at this
    rw [Nat.compare_eq_gt.2 h, Nat.compare_eq_gt.2 this]; rfl

/-! ### carries -/

theorem addCarry_spec {w a b : Nat} {c : Bool} (ha : a < 2 ^ w) (hb : b < 2 ^ w) :
    (addCarry w a b c).1 < 2 ^ w ∧
    (addCarry w a b c).1 + 2 ^ w * (addCarry w a b c).2.toNat = a + b + c.toNat := by
  unfold addCarry
  have hc : c.toNat ≤ 1 := by cases c <;> simp
  by_cases h : a + c.toNat < 2 ^ w
  · rw [Nat.mod_eq_of_lt h]
    by_cases h0 : a + c.toNat = 0
    · simp only [h0, ne_eq, not_true_eq_false, if_false]
      have : c = false := by cases c <;> simp_all
      subst this
      simp at h0 ⊢
      exact ⟨hb, h0⟩
    · simp only [ne_eq, h0, not_false_eq_true, if_true]
      refine ⟨Nat.mod_lt _ (pw w), ?_⟩
      by_cases h1 : a + c.toNat + b < 2 ^ w
      · rw [Nat.mod_eq_of_lt h1]
        have : ¬ a + c.toNat + b < a + c.toNat := by omega
        simp [this]; omega
      · rw [Nat.mod_eq_sub_mod (by omega), Nat.mod_eq_of_lt (by omega)]
        have : a + c.toNat + b - 2 ^ w < a + c.toNat := by omega
        simp [this]; omega
  · have h1 : a + c.toNat = 2 ^ w := by omega
    have h2 : c = true := by cases c <;> simp_all
    subst h2
    simp only [h1, Nat.mod_self, ne_eq, not_true_eq_false, if_false]
    refine ⟨hb, ?_⟩
    simp at h1 ⊢; omega

theorem addCarry1_spec {w a : Nat} {c : Bool} (ha : a < 2 ^ w) :
    (addCarry1 w a c).1 < 2 ^ w ∧
    (addCarry1 w a c).1 + 2 ^ w * (addCarry1 w a c).2.toNat = a + c.toNat := by
  unfold addCarry1
  have hc : c.toNat ≤ 1 := by cases c <;> simp
  refine ⟨Nat.mod_lt _ (pw w), ?_⟩
  by_cases h : a + c.toNat < 2 ^ w
  · rw [Nat.mod_eq_of_lt h]
    by_cases h0 : a + c.toNat = 0
    · have : c = false := by cases c <;> simp_all
      subst this; simp at h0; simp [h0]
    · simp
  · have h1 : a + c.toNat = 2 ^ w := by omega
    have h2 : c = true := by cases c <;> simp_all
    subst h2
    simp only [h1, Nat.mod_self]; simp

theorem subBorrow_spec {w a b : Nat} {c : Bool} (ha : a < 2 ^ w) (hb : b < 2 ^ w) :
    (subBorrow w a b c).1 < 2 ^ w ∧
    (subBorrow w a b c).1 + b + c.toNat = a + 2 ^ w * (subBorrow w a b c).2.toNat := by
  unfold subBorrow
  have hc : c.toNat ≤ 1 := by cases c <;> simp
  by_cases h : b + c.toNat < 2 ^ w
  · rw [Nat.mod_eq_of_lt h]
    by_cases h0 : b + c.toNat = 0
    · simp only [h0, ne_eq, not_true_eq_false, if_false]
      have : c = false := by cases c <;> simp_all
      subst this; simp at h0 ⊢; exact ⟨ha, h0⟩
    · simp only [ne_eq, h0, not_false_eq_true, if_true]
      refine ⟨Nat.mod_lt _ (pw w), ?_⟩
      by_cases h1 : b + c.toNat ≤ a
      · have : (a + 2 ^ w - (b + c.toNat)) % 2 ^ w = a - (b + c.toNat) := by
          rw [show a + 2 ^ w - (b + c.toNat) = a - (b + c.toNat) + 2 ^ w by omega,
            Nat.add_mod_right, Nat.mod_eq_of_lt (by omega)]
        rw [this]
        have : ¬ a - (b + c.toNat) > a := by omega
        simp [this]; omega
      · rw [Nat.mod_eq_of_lt (by omega)]
        have : a + 2 ^ w - (b + c.toNat) > a := by omega
        simp [this]; omega
  · have h1 : b + c.toNat = 2 ^ w := by omega
    have h2 : c = true := by cases c <;> simp_all
    subst h2
    simp only [h1, Nat.mod_self, ne_eq, not_true_eq_false, if_false]
    refine ⟨ha, ?_⟩
    simp at h1 ⊢; omega

theorem subBorrow1_spec {w a : Nat} {c : Bool} (ha : a < 2 ^ w) :
    (subBorrow1 w a c).1 < 2 ^ w ∧
    (subBorrow1 w a c).1 + c.toNat = a + 2 ^ w * (subBorrow1 w a c).2.toNat := by
  unfold subBorrow1
  cases c with
  | false => simp [ha]
  | true =>
    simp only [if_true]
    refine ⟨Nat.mod_lt _ (pw w), ?_⟩
    by_cases h : a = 0
    · subst h
      have := pw w
      rw [Nat.mod_eq_of_lt (by omega)]; simp; omega
    · rw [show a + 2 ^ w - 1 = a - 1 + 2 ^ w by omega, Nat.add_mod_right,
        Nat.mod_eq_of_lt (by omega)]
      have : (a == 0) = false := by simpa using h
      rw [this]; simp; omega

end ELC.Ubig
