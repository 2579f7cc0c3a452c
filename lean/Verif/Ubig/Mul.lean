import Verif.Ubig.AddSub

/-! Multiplication: schoolbook and Karatsuba. -/
namespace ELC.Ubig
open Spec (val NoLeadingZero Stores)

theorem mulDigit_spec {w b : Nat} {a : List Nat} (ha : Spec.Digits w a) (hb : b < 2 ^ w) (num : Nat)
    (hn : num < 2 ^ w) :
    Spec.Digits w (mulDigit w b a num) ∧ (mulDigit w b a num).length = a.length + 1 ∧
    val w (mulDigit w b a num) = val w a * b + num := by
  induction a generalizing num with
  | nil =>
    simp only [mulDigit, Nat.mod_eq_of_lt hn]
    exact ⟨digits_cons.2 ⟨hn, digits_nil w⟩, rfl, by simp [val]⟩
  | cons x a ih =>
    rw [digits_cons] at ha
    have hfit : num + x * b < 2 ^ (2 * w) := by
      rw [Nat.two_mul, pow_add]
      have : x * b ≤ (2 ^ w - 1) * (2 ^ w - 1) := Nat.mul_le_mul (by omega) (by omega)
      have h2 : (2 ^ w - 1) * (2 ^ w - 1) + 2 ^ w ≤ 2 ^ w * 2 ^ w := by
        obtain ⟨k, hk⟩ := Nat.exists_eq_succ_of_ne_zero (Nat.ne_of_gt (pw w))
        rw [hk]; simp only [Nat.succ_eq_add_one, Nat.add_sub_cancel]; nlinarith
      omega
    have hcar : (num + x * b) / 2 ^ w < 2 ^ w := by
      apply Nat.div_lt_of_lt_mul; rwa [Nat.two_mul, pow_add] at hfit
    simp only [mulDigit, Nat.mod_eq_of_lt hfit]
    obtain ⟨h1, h2, h3⟩ := ih ha.2 _ hcar
    refine ⟨digits_cons.2 ⟨Nat.mod_lt _ (pw w), h1⟩, by simp [h2], ?_⟩
    simp only [val, h3]
    have := Nat.mod_add_div (num + x * b) (2 ^ w)
    rw [Nat.mul_add, Nat.add_mul]
    have h4 : 2 ^ w * (val w a * b) = 2 ^ w * val w a * b := by ring
    omega

theorem endZeros_le (a : List Nat) : endZeros a ≤ a.length := by
  induction a with
  | nil => simp [endZeros]
  | cons x a ih => simp only [endZeros]; split <;> (simp; try omega)

theorem val_endZeros (w : Nat) (a : List Nat) :
    val w a = (2 ^ w) ^ endZeros a * val w (a.drop (endZeros a)) := by
  induction a with
  | nil => simp [endZeros, val]
  | cons x a ih =>
    simp only [endZeros]
    split
    · next hx =>
      simp only [List.drop_succ_cons, val, hx, Nat.zero_add, pow_succ]
      rw [ih]
      conv_rhs => rw [Nat.mul_comm ((2 ^ w) ^ _) (2 ^ w), Nat.mul_assoc]
    · simp

theorem endZeros_drop_ne (a : List Nat) (h : ∃ d ∈ a, d ≠ 0) : a.drop (endZeros a) ≠ [] := by
  induction a with
  | nil => obtain ⟨d, hd, _⟩ := h; cases hd
  | cons x a ih =>
    simp only [endZeros]
    split
    · next hx =>
      obtain ⟨d, hd, hd0⟩ := h
      rcases List.mem_cons.1 hd with rfl | hd
      · exact absurd hx hd0
      · simpa using ih ⟨d, hd, hd0⟩
    · simp

theorem mulDigitBuf_spec {w b : Nat} {a : List Nat} (ha : Spec.Digits w a) (hb : b < 2 ^ w) :
    Spec.Digits w (mulDigitBuf w a b) ∧ (mulDigitBuf w a b).length = a.length + 1 ∧
    val w (mulDigitBuf w a b) = val w a * b := by
  unfold mulDigitBuf
  split
  · next h0 =>
    subst h0
    exact ⟨digits_replicate_zero _ _, by simp, by simp [val_replicate_zero]⟩
  · obtain ⟨h1, h2, h3⟩ := mulDigit_spec (digits_drop (endZeros a) ha) hb 0 (pw w)
    have hz := endZeros_le a
    refine ⟨digits_append.2 ⟨digits_replicate_zero _ _, h1⟩, ?_, ?_⟩
    · rw [List.length_append, h2, List.length_replicate, List.length_drop]; omega
    · rw [val_append, val_replicate_zero, h3, List.length_replicate, Nat.zero_add, Nat.add_zero,
        ← Nat.mul_assoc, ← val_endZeros]

theorem mulRows_spec {w : Nat} {a : List Nat} (ha : Spec.Digits w a) {b buf : List Nat}
    (hb : Spec.Digits w b) (hbuf : Spec.Digits w buf) (hl : b.length ≤ buf.length)
    (hv : val w buf + val w a * val w b < (2 ^ w) ^ buf.length) :
    ∃ r, mulRows w a b buf = some r ∧ Spec.Digits w r ∧ r.length = buf.length ∧
      val w r = val w buf + val w a * val w b := by
  induction b generalizing buf with
  | nil => exact ⟨buf, rfl, hbuf, rfl, by simp [val]⟩
  | cons y b ih =>
    rw [digits_cons] at hb
    -- the row added at this position
    have hstep : ∃ buf', (if y ≠ 0 then addInto w buf (shrink (mulDigit w y a 0)) false else some buf)
        = some buf' ∧ Spec.Digits w buf' ∧ buf'.length = buf.length ∧
          val w buf' = val w buf + val w a * y := by
      split
      · obtain ⟨h1, h2, h3⟩ := mulDigit_spec ha hb.1 0 (pw w)
        have hrow := stores_shrink h1 h3
        have hle : val w a * y ≤ val w a * val w (y :: b) :=
          Nat.mul_le_mul_left _ (by simp [val])
        have hfit : val w buf + val w a * y < (2 ^ w) ^ buf.length := by omega
        obtain ⟨r, hr⟩ := addInto_isSome (c := false) hbuf hrow.1
          (length_le_of_val_lt hrow.2 (by rw [hrow.3]; omega))
          (by rw [hrow.3]; simpa using hfit)
        obtain ⟨r1, r2, r3⟩ := addInto_some hbuf hrow.1 hr
        exact ⟨r, hr, r1, r2, by rw [r3, hrow.3]; simp⟩
      · next h0 =>
        have : y = 0 := by omega
        exact ⟨buf, rfl, hbuf, rfl, by simp [this]⟩
    obtain ⟨buf', e1, e2, e3, e4⟩ := hstep
    simp only [mulRows, e1, Option.bind_some]
    cases buf' with
    | nil => simp at e3 hl; omega
    | cons x t =>
      rw [digits_cons] at e2
      simp only [val] at e4 hv
      simp only [List.length_cons] at e3 hl
      have hlen : buf.length = t.length + 1 := e3.symm
      rw [hlen, pow_succ] at hv
      have hv' : val w t + val w a * val w b < (2 ^ w) ^ t.length := by
        have : 2 ^ w * (val w t + val w a * val w b) < 2 ^ w * (2 ^ w) ^ t.length := by
          rw [Nat.mul_add, Nat.mul_comm (2 ^ w) ((2 ^ w) ^ _)]
          have h5 : val w a * (y + 2 ^ w * val w b) = val w a * y + 2 ^ w * (val w a * val w b) := by
            ring
          omega
        exact Nat.lt_of_mul_lt_mul_left this
      obtain ⟨r, hr, r1, r2, r3⟩ := ih hb.2 e2.2 (by omega) hv'
      refine ⟨x :: r, by simp only [hr]; rfl, digits_cons.2 ⟨e2.1, r1⟩, by simp [r2, hlen], ?_⟩
      simp only [val, r3, Nat.mul_add]
      have h5 : val w a * (2 ^ w * val w b) = 2 ^ w * (val w a * val w b) := by ring
      omega

theorem mulBase_stores {w : Nat} {a b : List Nat} (ha : Spec.Digits w a) (hb : Spec.Digits w b) :
    ∃ r, mulBase w a b = some r ∧ Stores w r (val w a * val w b) := by
  have main : ∀ a b : List Nat, Spec.Digits w a → Spec.Digits w b →
      ∃ r, ((mulRows w (a.drop (endZeros a)) (b.drop (endZeros b))
        (List.replicate (a.length + b.length - (endZeros a + endZeros b)) 0)).map
        fun r => shrink (List.replicate (endZeros a + endZeros b) 0 ++ r)) = some r ∧
        Stores w r (val w a * val w b) := by
    intro a b ha hb
    have hza := endZeros_le a
    have hzb := endZeros_le b
    have hda := digits_drop (endZeros a) ha
    have hdb := digits_drop (endZeros b) hb
    have hva := val_lt hda
    have hvb := val_lt hdb
    rw [List.length_drop] at hva hvb
    have hlen : a.length + b.length - (endZeros a + endZeros b)
      = (a.length - endZeros a) + (b.length - endZeros b) := by omega
    obtain ⟨r, hr, r1, r2, r3⟩ := mulRows_spec hda hdb
      (digits_replicate_zero w (a.length + b.length - (endZeros a + endZeros b)))
      (by simp only [List.length_drop, List.length_replicate]; omega)
      (by
        rw [val_replicate_zero, Nat.zero_add, List.length_replicate, hlen, pow_add]
        exact Nat.mul_lt_mul'' hva hvb)
    refine ⟨_, by rw [hr]; rfl, ?_⟩
    apply stores_shrink (digits_append.2 ⟨digits_replicate_zero _ _, r1⟩)
    rw [val_append, val_replicate_zero, r3, val_replicate_zero, Nat.zero_add, Nat.zero_add,
      List.length_replicate, pow_add, val_endZeros w a, val_endZeros w b]
    conv_rhs => rw [← val_endZeros w a, ← val_endZeros w b, val_endZeros w a, val_endZeros w b]
    ring
  unfold mulBase
  by_cases hlt : a.length < b.length
  · simp only [hlt, if_true]
    obtain ⟨r, h1, h2⟩ := main b a hb ha
    exact ⟨r, h1, by rwa [Nat.mul_comm]⟩
  · simp only [hlt, if_false]
    exact main a b ha hb

/-! ### Karatsuba -/

theorem offsetAdd_some {w : Nat} {buf b r : List Nat} {off : Nat} (hbuf : Spec.Digits w buf)
    (hb : Spec.Digits w b) (h : offsetAdd w buf b off = some r) :
    Stores w r (val w buf + (2 ^ w) ^ off * val w b) := by
  have main : ∀ buf : List Nat, Spec.Digits w buf → off ≤ buf.length →
      ((addInto w (buf.drop off) b false).map fun r => shrink (buf.take off ++ r)) = some r →
      Stores w r (val w buf + (2 ^ w) ^ off * val w b) := by
    intro buf hbuf hl h
    obtain ⟨s, hs, rfl⟩ := Option.map_eq_some_iff.1 h
    obtain ⟨h1, h2, h3⟩ := addInto_some (digits_drop off hbuf) hb hs
    apply stores_shrink (digits_append.2 ⟨digits_take off hbuf, h1⟩)
    rw [val_append, h3, List.length_take, Nat.min_eq_left hl, val_take_drop w buf off hl]
    simp; ring
  unfold offsetAdd at h
  simp only at h
  split at h
  · next hle =>
    have := main _ (digits_append.2 ⟨hbuf, digits_replicate_zero w _⟩)
      (by simp only [List.length_append, List.length_replicate]; omega) h
    rwa [val_append, val_replicate_zero, Nat.mul_zero, Nat.add_zero] at this
  · next hgt => exact main buf hbuf (by omega) h

/-- The first of the two merges always has room. -/
theorem offsetAdd_isSome {w : Nat} (hw : 0 < w) {buf b : List Nat} {off : Nat}
    (hbuf : Spec.Digits w buf) (hb : Spec.Digits w b) (hl : buf.length ≤ off + b.length) :
    ∃ r, offsetAdd w buf b off = some r := by
  have two : 2 ≤ 2 ^ w := by
    calc 2 = 2 ^ 1 := rfl
      _ ≤ _ := Nat.pow_le_pow_right (by decide) (by omega)
  unfold offsetAdd
  simp only [hl, if_true]
  have hd : Spec.Digits w (buf ++ List.replicate (off + b.length + 1 - buf.length) 0) :=
    digits_append.2 ⟨hbuf, digits_replicate_zero _ _⟩
  have hlen : (buf ++ List.replicate (off + b.length + 1 - buf.length) 0).length
      = off + b.length + 1 := by simp; omega
  have hval : val w ((buf ++ List.replicate (off + b.length + 1 - buf.length) 0).drop off)
      < (2 ^ w) ^ b.length := by
    rw [val_drop w off hd, val_append, val_replicate_zero, Nat.mul_zero, Nat.add_zero]
    apply Nat.div_lt_of_lt_mul
    rw [← pow_add]
    exact Nat.lt_of_lt_of_le (val_lt hbuf) (Nat.pow_le_pow_right (pw w) hl)
  obtain ⟨r, hr⟩ := addInto_isSome (c := false) (digits_drop off hd) hb
    (by rw [List.length_drop, hlen]; omega) (by
      rw [List.length_drop, hlen, show off + b.length + 1 - off = b.length + 1 by omega, pow_succ]
      have := val_lt hb
      simp only [Bool.toNat_false, Nat.add_zero]
      calc _ < (2 ^ w) ^ b.length + (2 ^ w) ^ b.length := by omega
        _ = (2 ^ w) ^ b.length * 2 := by ring
        _ ≤ _ := Nat.mul_le_mul_left _ two)
  exact ⟨_, by rw [hr]; rfl⟩

theorem nlz_drop {l : List Nat} (n : Nat) (h : NoLeadingZero l) : NoLeadingZero (l.drop n) := by
  induction n generalizing l with
  | zero => simpa using h
  | succ n ih => cases l with
    | nil => simpa using h
    | cons x l => simpa using ih (nlz_tail h)

theorem stores_drop {w : Nat} {l : List Nat} {v : Nat} (n : Nat) (h : Stores w l v) :
    Stores w (l.drop n) (v / (2 ^ w) ^ n) :=
  ⟨digits_drop n h.1, nlz_drop n h.2, by rw [val_drop w n h.1, h.3]⟩

theorem splitPoint_lt {m n : Nat} (hm : 64 ≤ m) (hn : 64 ≤ n) :
    splitPoint m n < m ∧ splitPoint m n < n ∧ 0 < splitPoint m n ∧
    (max (m - splitPoint m n) (splitPoint m n) + 1) + (max (n - splitPoint m n) (splitPoint m n) + 1)
      < m + n := by
  unfold splitPoint; omega

theorem stores_take {w : Nat} {l : List Nat} {v : Nat} (n : Nat) (hn : n ≤ l.length)
    (h : Stores w l v) : Stores w (shrink (l.take n)) (v % (2 ^ w) ^ n) := by
  apply stores_shrink (digits_take n h.1)
  have h1 := val_take_drop w l n hn
  have h2 : val w (l.take n) < (2 ^ w) ^ n := by
    have := val_lt (digits_take n h.1)
    rwa [List.length_take, Nat.min_eq_left hn] at this
  rw [← h.3, h1, Nat.add_mul_mod_self_left, Nat.mod_eq_of_lt h2]

theorem karatsuba_identity (P x y : Nat) :
    (x / P + x % P) * (y / P + y % P) - (x / P * (y / P) + x % P * (y % P))
      = x / P * (y % P) + x % P * (y / P) := by
  have : (x / P + x % P) * (y / P + y % P)
    = (x / P * (y / P) + x % P * (y % P)) + (x / P * (y % P) + x % P * (y / P)) := by ring
  omega

theorem karatsuba_total (P x y : Nat) :
    x % P * (y % P) + P ^ 2 * (x / P * (y / P)) + P * (x / P * (y % P) + x % P * (y / P)) = x * y := by
  have hx := Nat.mod_add_div x P
  have hy := Nat.mod_add_div y P
  calc _ = (x % P + P * (x / P)) * (y % P + P * (y / P)) := by ring
    _ = x * y := by rw [hx, hy]

/-- Addition does not need normalised operands to get the value right. -/
theorem add_digits {w : Nat} {a b : List Nat} (ha : Spec.Digits w a) (hb : Spec.Digits w b) :
    ∃ r, add w a b = some r ∧ Spec.Digits w r ∧ val w r = val w a + val w b := by
  have main : ∀ (a b : List Nat), Spec.Digits w a → Spec.Digits w b → b.length ≤ a.length →
      ∃ r, (if b.length = 0 then some a
        else (addInto w (a ++ List.replicate (safetyDiff w a b) 0) b false).map
          fun r => if safetyDiff w a b ≠ 0 then shrink r else r) = some r ∧
        Spec.Digits w r ∧ val w r = val w a + val w b := by
    intro a b ha hb hl
    by_cases h0 : b.length = 0
    · have : b = [] := List.length_eq_zero_iff.1 h0
      subst this
      exact ⟨a, by simp, ha, by simp [val]⟩
    · obtain ⟨r, hr, h1, h2, h3⟩ := add_ordered ha hb hl (nlz_ne_nil_of_length h0)
      refine ⟨if safetyDiff w a b ≠ 0 then shrink r else r, by
        simp only [h0, if_false, hr, Option.map_some], ?_⟩
      split
      · exact ⟨digits_shrink h1, by rw [val_shrink, h3]⟩
      · exact ⟨h1, h3⟩
  unfold add
  by_cases hlt : a.length < b.length
  · simp only [hlt, if_true]
    obtain ⟨r, h1, h2, h3⟩ := main b a hb ha (by omega)
    exact ⟨r, h1, h2, by rwa [Nat.add_comm]⟩
  · simp only [hlt, if_false]
    exact main a b ha hb (by omega)

/-- Whatever the recursion depth: a result of `fast_muti_base` is the exact product, normalised. -/
theorem fastMulAux_digits {w : Nat} (fuel : Nat) {a b r : List Nat} (ha : Spec.Digits w a)
    (hb : Spec.Digits w b) (h : fastMulAux w fuel a b = some r) :
    Stores w r (val w a * val w b) := by
  induction fuel generalizing a b r with
  | zero => simp [fastMulAux] at h
  | succ fuel ih =>
    simp only [fastMulAux] at h
    split at h
    · obtain ⟨r', h1, h2⟩ := mulBase_stores ha hb
      rw [h1] at h; simp at h; subst h
      exact h2
    · next hge =>
      have hge : 64 ≤ a.length ∧ 64 ≤ b.length := by
        simp only [mulThreshold] at hge; omega
      obtain ⟨hsa, hsb, _, _⟩ := splitPoint_lt hge.1 hge.2
      generalize splitPoint a.length b.length = sp at *
      simp only [Option.bind_eq_bind, Option.bind_eq_some_iff] at h
      obtain ⟨high, e1, low, e2, aSum, e3, bSum, e4, mid, e5, hl, e6, mid', e7, s, e8, e9⟩ := h
      have hah := digits_drop sp ha
      have hbh := digits_drop sp hb
      have low_val : ∀ {l : List Nat}, Spec.Digits w l → sp < l.length →
          Spec.Digits w (shrink (l.take sp)) ∧ val w (shrink (l.take sp)) = val w l % (2 ^ w) ^ sp := by
        intro l hl hlt
        have hd := digits_take sp hl
        refine ⟨digits_shrink hd, ?_⟩
        have h1 := val_take_drop w l sp (by omega)
        have h2 := val_lt hd
        rw [List.length_take, Nat.min_eq_left (by omega)] at h2
        rw [val_shrink, h1, Nat.add_mul_mod_self_left, Nat.mod_eq_of_lt h2]
      obtain ⟨hal, val_al⟩ := low_val ha hsa
      obtain ⟨hbl, val_bl⟩ := low_val hb hsb
      have s1 := ih hah hbh e1
      have s2 := ih hal hbl e2
      obtain ⟨_, t3, d3, s3⟩ := add_digits hah hal
      rw [e3] at t3; simp at t3; subst t3
      obtain ⟨_, t4, d4, s4⟩ := add_digits hbh hbl
      rw [e4] at t4; simp at t4; subst t4
      have s5 := ih d3 d4 e5
      rw [s3, s4] at s5
      rw [val_drop w sp ha, val_al] at s5
      rw [val_drop w sp hb, val_bl] at s5
      rw [val_drop w sp ha, val_drop w sp hb] at s1
      rw [val_al, val_bl] at s2
      obtain ⟨_, t6, s6⟩ := add_stores s1 s2
      rw [e6] at t6; simp at t6; subst t6
      obtain ⟨_, t7, s7⟩ := sub_stores s5 s6
      rw [e7] at t7; simp at t7; subst t7
      rw [karatsuba_identity] at s7
      have s8 := offsetAdd_some s2.1 s1.1 e8
      have s9 := offsetAdd_some s8.1 s7.1 e9
      rw [s8.3, s7.3, s2.3, s1.3] at s9
      rw [pow_mul] at s9
      rwa [karatsuba_total] at s9

theorem fastMulAux_some {w : Nat} (fuel : Nat) {a b r : List Nat} {x y : Nat} (ha : Stores w a x)
    (hb : Stores w b y) (h : fastMulAux w fuel a b = some r) : Stores w r (x * y) := by
  have := fastMulAux_digits fuel ha.1 hb.1 h
  rwa [ha.3, hb.3] at this

theorem fastMulAux_small {w : Nat} (fuel : Nat) {a b : List Nat} (ha : Spec.Digits w a)
    (hb : Spec.Digits w b) (h : a.length < 64 ∨ b.length < 64) :
    ∃ r, fastMulAux w (fuel + 1) a b = some r := by
  have : min a.length b.length < mulThreshold := by simp only [mulThreshold]; omega
  simp only [fastMulAux, this, if_true]
  obtain ⟨r, h1, _⟩ := mulBase_stores ha hb
  exact ⟨r, h1⟩

theorem add_length {w : Nat} (hw : 0 < w) {a b r : List Nat} {x y n : Nat} (ha : Stores w a x)
    (hb : Stores w b y) (hx : x < (2 ^ w) ^ n) (hy : y < (2 ^ w) ^ n) (h : add w a b = some r) :
    r.length ≤ n + 1 := by
  obtain ⟨_, t, s⟩ := add_stores ha hb
  rw [h] at t; simp at t; subst t
  apply length_le_of_val_lt s.2
  rw [s.3, pow_succ]
  have two : 2 ≤ 2 ^ w := by
    calc 2 = 2 ^ 1 := rfl
      _ ≤ _ := Nat.pow_le_pow_right (by decide) (by omega)
  calc x + y < (2 ^ w) ^ n * 2 := by omega
    _ ≤ _ := Nat.mul_le_mul_left _ two

/-- The recursion depth given by `mul` is enough: more does not change the outcome, so `none` is never
an artefact of the bound. -/
theorem fastMulAux_fuel {w : Nat} (hw : 0 < w) (f g : Nat) {a b : List Nat} {x y : Nat}
    (ha : Stores w a x) (hb : Stores w b y) (hf : a.length + b.length < f)
    (hg : a.length + b.length < g) : fastMulAux w f a b = fastMulAux w g a b := by
  induction f generalizing g a b x y with
  | zero => omega
  | succ f ih =>
    obtain ⟨g, rfl⟩ : ∃ g', g = g' + 1 := ⟨g - 1, by omega⟩
    simp only [fastMulAux]
    split
    · rfl
    · next hge =>
      have hge : 64 ≤ a.length ∧ 64 ≤ b.length := by
        simp only [mulThreshold] at hge; omega
      obtain ⟨hsa, hsb, hs0, hsum⟩ := splitPoint_lt hge.1 hge.2
      generalize splitPoint a.length b.length = sp at *
      have hah := stores_drop sp ha
      have hbh := stores_drop sp hb
      have hal := stores_take sp (by omega) ha
      have hbl := stores_take sp (by omega) hb
      have lal := shrink_length_le (a.take sp)
      have lbl := shrink_length_le (b.take sp)
      rw [List.length_take] at lal lbl
      have r1 := ih g hah hbh (by simp only [List.length_drop]; omega)
        (by simp only [List.length_drop]; omega)
      have r2 := ih g hal hbl (by omega) (by omega)
      rw [r1, r2]
      congr 1; funext high
      congr 1; funext low
      cases e3 : add w (a.drop sp) (shrink (a.take sp)) with
      | none => rfl
      | some aSum =>
        cases e4 : add w (b.drop sp) (shrink (b.take sp)) with
        | none => rfl
        | some bSum =>
          have bound : ∀ {l : List Nat} {v : Nat}, Stores w l v → sp < l.length →
              v / (2 ^ w) ^ sp < (2 ^ w) ^ (max (l.length - sp) sp) ∧
              v % (2 ^ w) ^ sp < (2 ^ w) ^ (max (l.length - sp) sp) := by
            intro l v hl hlt
            constructor
            · refine Nat.lt_of_lt_of_le ?_ (Nat.pow_le_pow_right (pw w) (Nat.le_max_left _ _))
              apply Nat.div_lt_of_lt_mul
              rw [← pow_add, show sp + (l.length - sp) = l.length by omega, ← hl.3]
              exact val_lt hl.1
            · exact Nat.lt_of_lt_of_le (Nat.mod_lt _ (Nat.pow_pos (pw w)))
                (Nat.pow_le_pow_right (pw w) (Nat.le_max_right _ _))
          have b1 := bound ha hsa
          have b2 := bound hb hsb
          have l1 := add_length hw hah hal b1.1 b1.2 e3
          have l2 := add_length hw hbh hbl b2.1 b2.2 e4
          obtain ⟨_, t3, s3⟩ := add_stores hah hal
          rw [e3] at t3; simp at t3; subst t3
          obtain ⟨_, t4, s4⟩ := add_stores hbh hbl
          rw [e4] at t4; simp at t4; subst t4
          have r3 := ih g s3 s4 (by omega) (by omega)
          simp only [Option.bind_eq_bind, Option.bind_some, r3]

theorem mul_some {w : Nat} {a b r : List Nat} {x y : Nat} (ha : Stores w a x)
    (hb : Stores w b y) (h : mul w a b = some r) : Stores w r (x * y) := fastMulAux_some _ ha hb h

end ELC.Ubig
