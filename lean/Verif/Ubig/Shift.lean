import Verif.Ubig.AddSub
import Verif.Ubig.Mul
import Verif.Bits.Lemmas

/-! Shifts and bit queries. -/
namespace ELC.Ubig
open Spec (val NoLeadingZero Stores)

theorem or_eq_add {a c k : Nat} (hc : c < 2 ^ k) : (2 ^ k * a) ||| c = 2 ^ k * a + c :=
  (Nat.two_pow_add_eq_or_of_lt hc a).symm

theorem two_pow_split {w off : Nat} (h : off ≤ w) : 2 ^ w = 2 ^ off * 2 ^ (w - off) := by
  rw [← pow_add]; congr 1; omega

theorem shl_digit {w off x carry : Nat} (h : off ≤ w) (hc : carry < 2 ^ off) :
    ((x <<< off) % 2 ^ w) ||| carry = 2 ^ off * (x % 2 ^ (w - off)) + carry := by
  rw [Nat.shiftLeft_eq, two_pow_split h, Nat.mul_comm x, Nat.mul_mod_mul_left, or_eq_add hc]

theorem shlLoop_spec {w off : Nat} (ho : off ≤ w) {l : List Nat} (hl : Spec.Digits w l) (carry : Nat)
    (hc : carry < 2 ^ off) :
    Spec.Digits w (shlLoop w off l carry) ∧ val w (shlLoop w off l carry) = val w l * 2 ^ off + carry ∧
      (NoLeadingZero l → NoLeadingZero (shlLoop w off l carry)) ∧
      (l ≠ [] → shlLoop w off l carry ≠ []) := by
  induction l generalizing carry with
  | nil =>
    simp only [shlLoop]
    have hcw : carry < 2 ^ w := Nat.lt_of_lt_of_le hc (Nat.pow_le_pow_right (by decide) ho)
    split
    · next h0 =>
      exact ⟨digits_cons.2 ⟨hcw, digits_nil w⟩, by simp [val], fun _ => nlz_singleton h0,
        fun h => absurd rfl h⟩
    · exact ⟨digits_nil w, by simp [val]; omega, fun _ => nlz_nil, fun h => absurd rfl h⟩
  | cons x l ih =>
    rw [digits_cons] at hl
    have hcar : x >>> (w - off) < 2 ^ off := by
      rw [Nat.shiftRight_eq_div_pow]
      apply Nat.div_lt_of_lt_mul
      rw [Nat.mul_comm, ← two_pow_split ho]; exact hl.1
    obtain ⟨h1, h2, h3, h4⟩ := ih hl.2 _ hcar
    simp only [shlLoop, shl_digit ho hc]
    have hm : x % 2 ^ (w - off) < 2 ^ (w - off) := Nat.mod_lt _ (pw _)
    refine ⟨digits_cons.2 ⟨?_, h1⟩, ?_, ?_, by simp⟩
    · rw [two_pow_split ho]
      calc 2 ^ off * (x % 2 ^ (w - off)) + carry < 2 ^ off * (x % 2 ^ (w - off) + 1) := by
            rw [Nat.mul_add]; omega
        _ ≤ _ := Nat.mul_le_mul_left _ hm
    · simp only [val, h2]
      rw [Nat.shiftRight_eq_div_pow]
      have hx := Nat.mod_add_div x (2 ^ (w - off))
      conv_rhs => rw [← hx]
      rw [two_pow_split ho]
      ring
    · intro hnz
      cases l with
      | nil =>
        simp only [shlLoop]
        split
        · next h0 => exact nlz_cons_cons.2 (nlz_singleton h0)
        · next h0 =>
          apply nlz_singleton
          have hx0 : x ≠ 0 := hnz x (by simp)
          have h0 : x >>> (w - off) = 0 := by omega
          rw [Nat.shiftRight_eq_div_pow] at h0
          have hx := Nat.mod_add_div x (2 ^ (w - off))
          rw [h0] at hx
          have : 0 < 2 ^ off * (x % 2 ^ (w - off)) := Nat.mul_pos (pw _) (by omega)
          omega
      | cons y l =>
        have := h3 (nlz_tail hnz)
        have hne := h4 (by simp)
        cases hs : shlLoop w off (y :: l) (x >>> (w - off)) with
        | nil => exact absurd hs hne
        | cons z s => rw [hs] at this; exact nlz_cons_cons.2 this

theorem shl_count (w n : Nat) : (if n / w ≠ 0 then n % w else n) = n % w := by
  split
  · rfl
  · next h =>
    have h : n / w = 0 := by omega
    rcases Nat.div_eq_zero_iff.1 h with h | h
    · rw [h, Nat.mod_zero]
    · rw [Nat.mod_eq_of_lt h]

theorem stores_append_zeros {w q : Nat} {l : List Nat} {v : Nat} (h : Stores w l v) (hne : l ≠ []) :
    Stores w (List.replicate q 0 ++ l) (v * (2 ^ w) ^ q) :=
  ⟨digits_append.2 ⟨digits_replicate_zero _ _, h.1⟩, (nlz_append hne).2 h.2, by
    rw [val_append, val_replicate_zero, List.length_replicate, h.3]; ring⟩

theorem shl_stores {w : Nat} (hw : 0 < w) {a : List Nat} {x : Nat} (n : Nat) (ha : Stores w a x) :
    Stores w (shl w a n) (x * 2 ^ n) := by
  unfold shl
  split
  · next h =>
    subst h
    have : x = 0 := by rw [← ha.3]; rfl
    rw [this, Nat.zero_mul]; exact stores_nil w
  · next hne =>
    simp only [shl_count]
    have hn : 2 ^ n = 2 ^ (n % w) * (2 ^ w) ^ (n / w) := by
      rw [← pow_mul, ← pow_add, Nat.mod_add_div]
    rw [hn, ← Nat.mul_assoc]
    have hlt := Nat.mod_lt n hw
    split
    · obtain ⟨h1, h2, h3, h4⟩ := shlLoop_spec (Nat.le_of_lt hlt) ha.1 0 (pw _)
      exact stores_append_zeros ⟨h1, h3 ha.2, by rw [h2, ha.3, Nat.add_zero]⟩ (h4 hne)
    · next h0 =>
      have h0 : n % w = 0 := by omega
      rw [h0, pow_zero, Nat.mul_one]
      exact stores_append_zeros ha hne

theorem shrLoop_spec {w off : Nat} (ho : off ≤ w) {l : List Nat} (hl : Spec.Digits w l) :
    Spec.Digits w (shrLoop w off l).1 ∧ val w (shrLoop w off l).1 = val w l / 2 ^ off ∧
      (shrLoop w off l).2 = 2 ^ (w - off) * (val w l % 2 ^ off) := by
  induction l with
  | nil => exact ⟨digits_nil w, by simp [shrLoop, val], by simp [shrLoop, val]⟩
  | cons x l ih =>
    rw [digits_cons] at hl
    obtain ⟨h1, h2, h3⟩ := ih hl.2
    simp only [shrLoop, h3]
    have hB : 2 ^ w = 2 ^ off * 2 ^ (w - off) := two_pow_split ho
    have hxo : x >>> off < 2 ^ (w - off) := by
      rw [Nat.shiftRight_eq_div_pow]
      apply Nat.div_lt_of_lt_mul; rw [← hB]; exact hl.1
    rw [Nat.or_comm, or_eq_add hxo, Nat.shiftRight_eq_div_pow]
    rw [Nat.shiftRight_eq_div_pow] at hxo
    have hm : val w l % 2 ^ off < 2 ^ off := Nat.mod_lt _ (pw _)
    refine ⟨digits_cons.2 ⟨?_, h1⟩, ?_, ?_⟩
    · rw [hB, Nat.mul_comm (2 ^ off)]
      calc 2 ^ (w - off) * (val w l % 2 ^ off) + x / 2 ^ off
          < 2 ^ (w - off) * (val w l % 2 ^ off + 1) := by rw [Nat.mul_add]; omega
        _ ≤ _ := Nat.mul_le_mul_left _ hm
    · simp only [val, h2]
      have h4 : (x + 2 ^ w * val w l) / 2 ^ off = x / 2 ^ off + 2 ^ (w - off) * val w l := by
        rw [hB, Nat.mul_assoc, Nat.add_mul_div_left _ _ (pw _)]
      rw [h4]
      conv_rhs => rw [← Nat.mod_add_div (val w l) (2 ^ off)]
      rw [hB]; ring
    · rw [Nat.shiftLeft_eq, hB, Nat.mul_mod_mul_right, Nat.mul_comm]
      simp only [val]
      rw [hB, Nat.mul_assoc, Nat.add_mul_mod_self_left]

theorem shrAssign_stores {w : Nat} (hw : 0 < w) {a : List Nat} {x : Nat} (n : Nat)
    (ha : Stores w a x) : Stores w (shrAssign w a n) (x / 2 ^ n) := by
  unfold shrAssign
  have hn : 2 ^ n = (2 ^ w) ^ (n / w) * 2 ^ (n % w) := by
    rw [← pow_mul, ← pow_add, Nat.add_comm, Nat.mod_add_div]
  have hd := stores_drop (n / w) ha
  split
  · next h =>
    subst h
    have : x = 0 := by rw [← ha.3]; rfl
    rw [this, Nat.zero_div]; exact stores_nil w
  · next hne =>
    simp only [shl_count]
    split
    · next h =>
      have h0 : x / 2 ^ n = 0 := by
        rw [hn, ← Nat.div_div_eq_div_mul]
        have h1 := hd.3
        rw [List.drop_eq_nil_of_le (by omega)] at h1
        simp only [val] at h1
        rw [← h1, Nat.zero_div]
      rw [h0]; exact stores_nil w
    · rw [hn, ← Nat.div_div_eq_div_mul]
      split
      · obtain ⟨h1, h2, _⟩ := shrLoop_spec (Nat.le_of_lt (Nat.mod_lt n hw)) hd.1
        exact stores_shrink h1 (by rw [h2, hd.3])
      · next h0 =>
        have h0 : n % w = 0 := by omega
        rw [h0, pow_zero, Nat.div_one]; exact hd

theorem shr_some {w : Nat} (hw : 0 < w) {a r : List Nat} {x : Nat} (n : Nat) (ha : Stores w a x)
    (h : shr w a n = some r) : Stores w r (x / 2 ^ n) := by
  have key := shrAssign_stores hw n ha
  suffices r = shrAssign w a n by rw [this]; exact key
  unfold shr at h
  unfold shrAssign
  by_cases h0 : a = []
  · rw [if_pos h0] at h; rw [if_pos h0]; injection h with h; exact h.symm
  · rw [if_neg h0] at h; rw [if_neg h0]
    simp only [shl_count] at h ⊢
    have hl := List.length_pos_iff.2 h0
    generalize n / w = q at *
    by_cases hq : q ≥ a.length
    · rw [if_pos hq] at h; rw [if_pos ⟨by omega, hq⟩]; injection h with h; exact h.symm
    · rw [if_neg hq] at h; rw [if_neg (by omega)]
      by_cases hn : n % w ≠ 0
      · rw [if_pos hn] at h; rw [if_pos hn]
        by_cases hq0 : q ≠ 0
        · rw [if_pos hq0] at h; cases h
        · rw [if_neg hq0] at h
          have hq0 : q = 0 := by omega
          subst hq0
          injection h with h; exact h.symm
      · rw [if_neg hn] at h; rw [if_neg hn]; injection h with h; exact h.symm

theorem shr_isSome {w : Nat} {a : List Nat} {n : Nat} (h : n < w ∨ n % w = 0 ∨ a.length ≤ n / w) :
    ∃ r, shr w a n = some r := by
  unfold shr
  split
  · exact ⟨_, rfl⟩
  · simp only
    split
    · exact ⟨_, rfl⟩
    · next hq =>
      rw [shl_count]
      split
      · next hn =>
        rw [if_neg]
        · exact ⟨_, rfl⟩
        · have : n < w := by omega
          simp [Nat.div_eq_of_lt this]
      · exact ⟨_, rfl⟩

theorem shlDigits_stores {w : Nat} {a : List Nat} {x : Nat} (n : Nat) (ha : Stores w a x) :
    Stores w (shlDigits a n) (x * (2 ^ w) ^ n) := by
  unfold shlDigits
  split
  · next h =>
    subst h
    have : x = 0 := by rw [← ha.3]; rfl
    rw [this, Nat.zero_mul]; exact stores_nil w
  · next hne => exact stores_append_zeros ha hne

theorem shrDigits_stores {w : Nat} {a : List Nat} {x : Nat} (n : Nat) (ha : Stores w a x) :
    Stores w (shrDigits a n) (x / (2 ^ w) ^ n) := by
  have hd := stores_drop n ha
  unfold shrDigits
  split
  · next h =>
    subst h
    simpa using hd
  · split
    · next h => rwa [List.drop_eq_nil_of_le h] at hd
    · exact hd

/-! ### bits -/

theorem val_testBit {w : Nat} (hw : 0 < w) {l : List Nat} (hl : Spec.Digits w l) (n : Nat) :
    (val w l).testBit n = (l.getD (n / w) 0).testBit (n % w) := by
  induction l generalizing n with
  | nil => simp [val]
  | cons x l ih =>
    rw [digits_cons] at hl
    simp only [val]
    rw [Nat.add_comm, Nat.testBit_two_pow_mul_add _ hl.1]
    split
    · next h => rw [Nat.div_eq_of_lt h, Nat.mod_eq_of_lt h]; simp
    · next h =>
      rw [ih hl.2]
      have h1 : n / w = (n - w) / w + 1 := by
        conv_lhs => rw [show n = n - w + w by omega]
        rw [Nat.add_div_right _ hw]
      have h2 : n % w = (n - w) % w := by
        conv_lhs => rw [show n = n - w + w by omega]
        rw [Nat.add_mod_right]
      rw [h1, h2]; simp

theorem bitAt_spec {w : Nat} (hw : 0 < w) {a : List Nat} {x : Nat} (n : Nat) (ha : Stores w a x) :
    bitAt w a n = x.testBit n := by
  rw [← ha.3, val_testBit hw ha.1]
  unfold bitAt
  split
  · next h =>
    rw [List.getD_eq_getElem?_getD, List.getElem?_eq_none h]; simp
  · generalize a.getD (n / w) 0 = d
    rw [Nat.one_shiftLeft]
    generalize n % w = m
    cases hb : d.testBit m with
    | true =>
      have : (d &&& 2 ^ m) ≠ 0 := by
        intro h
        have h1 := congrArg (·.testBit m) h
        simp only [Nat.testBit_and, hb, Nat.testBit_two_pow_self, Nat.zero_testBit] at h1
        cases h1
      simpa using this
    | false =>
      have : (d &&& 2 ^ m) = 0 := by
        apply Nat.eq_of_testBit_eq
        intro i
        rw [Nat.testBit_and, Nat.zero_testBit, Nat.testBit_two_pow]
        by_cases hi : m = i
        · subst hi; simp [hb]
        · simp [hi]
      simp [this]

theorem digit_countr {k d : Nat} (hd : d < 2 ^ Bits.bitsOf k) (h0 : d ≠ 0) :
    Bits.countrZero k d < Bits.bitsOf k ∧ (∀ i, i < Bits.countrZero k d → d.testBit i = false) ∧
      d.testBit (Bits.countrZero k d) = true := by
  obtain ⟨h1, h2, h3⟩ := Bits.countrZero_spec k d hd
  have hlt : Bits.countrZero k d < Bits.bitsOf k := by
    by_contra hge
    apply h0
    apply Nat.eq_of_testBit_eq
    intro i
    rw [Nat.zero_testBit]
    by_cases hi : i < Bits.bitsOf k
    · exact h2 i (by omega)
    · exact Nat.testBit_lt_two_pow (Nat.lt_of_lt_of_le hd (Nat.pow_le_pow_right (by decide) (by omega)))
  exact ⟨hlt, h2, by simpa [Bits.Spec.fromRight] using h3 hlt⟩

theorem bitsOf_pos (k : Nat) : 0 < Bits.bitsOf k := Nat.mul_pos (by decide) (Nat.two_pow_pos _)

theorem countrZero_bits {k : Nat} {a : List Nat} (ha : Spec.Digits (Bits.bitsOf k) a)
    (h0 : val (Bits.bitsOf k) a ≠ 0) :
    (∀ i, i < countrZero k a → (val (Bits.bitsOf k) a).testBit i = false) ∧
      (val (Bits.bitsOf k) a).testBit (countrZero k a) = true := by
  induction a with
  | nil => exact absurd rfl h0
  | cons x l ih =>
    rw [digits_cons] at ha
    simp only [countrZero, val]
    rw [Nat.add_comm x]
    split
    · next hx =>
      subst hx
      simp only [val, Nat.zero_add] at h0
      obtain ⟨i1, i2⟩ := ih ha.2 (by intro h; rw [h] at h0; exact h0 (by simp))
      constructor
      · intro i hi
        rw [Nat.testBit_two_pow_mul_add _ ha.1]
        split
        · simp
        · exact i1 _ (by omega)
      · rw [Nat.testBit_two_pow_mul_add _ ha.1, if_neg (by omega), Nat.add_sub_cancel_left]
        exact i2
    · next hx =>
      obtain ⟨d1, d2, d3⟩ := digit_countr ha.1 hx
      constructor
      · intro i hi
        rw [Nat.testBit_two_pow_mul_add _ ha.1, if_pos (by omega)]; exact d2 i hi
      · rw [Nat.testBit_two_pow_mul_add _ ha.1, if_pos d1]; exact d3

theorem two_pow_dvd_of_bits {x z : Nat} (h : ∀ i, i < z → x.testBit i = false) : 2 ^ z ∣ x := by
  apply Nat.dvd_of_mod_eq_zero
  apply Nat.eq_of_testBit_eq
  intro i
  rw [Nat.testBit_mod_two_pow, Nat.zero_testBit]
  by_cases hi : i < z
  · simp [h i hi]
  · simp [hi]

theorem not_dvd_of_bit {x z : Nat} (h : x.testBit z = true) : ¬ 2 ^ (z + 1) ∣ x := by
  rintro ⟨c, rfl⟩
  rw [pow_succ, Nat.mul_assoc, Nat.testBit_two_pow_mul] at h
  simp at h

theorem getBitnum_spec {k : Nat} {a : List Nat} {x : Nat} (ha : Stores (Bits.bitsOf k) a x) :
    Bits.Spec.BinaryLength x (getBitnum k a) := by
  unfold getBitnum
  split
  · next h =>
    subst h
    have : x = 0 := by rw [← ha.3]; rfl
    subst this
    exact ⟨by decide, fun _ => rfl, fun h => absurd rfl h⟩
  · next hne =>
    have hW := bitsOf_pos k
    have hl := List.length_pos_iff.2 hne
    have hlt := getLastD_lt ha.1
    have htop : a.getLastD 0 ≠ 0 := by
      rw [List.getLastD_eq_getLast?, List.getLast?_eq_some_getLast hne]
      exact ha.2 _ (List.getLast?_eq_some_getLast hne)
    obtain ⟨v1, v2⟩ := val_last ha.1 hne
    rw [ha.3] at v1 v2
    obtain ⟨c1, c2, c3⟩ := Bits.countlZero_spec k (a.getLastD 0) hlt
    generalize a.getLastD 0 = d at *
    generalize Bits.countlZero k d = z at *
    generalize Bits.bitsOf k = W at *
    have hz : z < W := by
      by_contra hge
      apply htop
      apply Nat.eq_of_testBit_eq
      intro i
      rw [Nat.zero_testBit]
      by_cases hi : i < W
      · have := c2 (W - 1 - i) (by omega)
        simp only [Bits.Spec.fromLeft] at this
        rwa [show W - 1 - (W - 1 - i) = i by omega] at this
      · exact Nat.testBit_lt_two_pow (Nat.lt_of_lt_of_le hlt (Nat.pow_le_pow_right (by decide) (by omega)))
    have hbit := c3 hz
    simp only [Bits.Spec.fromLeft, Bool.not_false] at hbit
    have hge : 2 ^ (W - 1 - z) ≤ d := Nat.ge_two_pow_of_testBit hbit
    have hd : d < 2 ^ (W - z) := by
      apply Nat.lt_pow_two_of_testBit
      intro i hi
      by_cases hiW : i < W
      · have := c2 (W - 1 - i) (by omega)
        simp only [Bits.Spec.fromLeft] at this
        rwa [show W - 1 - (W - 1 - i) = i by omega] at this
      · exact Nat.testBit_lt_two_pow (Nat.lt_of_lt_of_le hlt (Nat.pow_le_pow_right (by decide) (by omega)))
    have hlen : a.length * W = (a.length - 1) * W + W := by
      rw [← Nat.succ_mul]; congr 1; omega
    have hP : (2 ^ W) ^ (a.length - 1) = 2 ^ ((a.length - 1) * W) := by
      rw [← pow_mul, Nat.mul_comm]
    rw [hP] at v1 v2
    rw [hlen]
    generalize (a.length - 1) * W = e at *
    refine ⟨?_, ?_, ?_⟩
    · calc x < (d + 1) * 2 ^ e := v2
        _ ≤ 2 ^ (W - z) * 2 ^ e := Nat.mul_le_mul_right _ hd
        _ = 2 ^ (e + W - z) := by rw [← pow_add]; congr 1; omega
    · intro h0
      have : 0 < d * 2 ^ e := Nat.mul_pos (by omega) (pw e)
      omega
    · intro _
      calc 2 ^ (e + W - z - 1) = 2 ^ (W - 1 - z) * 2 ^ e := by rw [← pow_add]; congr 1; omega
        _ ≤ d * 2 ^ e := Nat.mul_le_mul_right _ hge
        _ ≤ x := v1

theorem isOdd_spec {w : Nat} (hw : 0 < w) {a : List Nat} {x : Nat} (ha : Stores w a x) :
    isOdd a = decide (x % 2 = 1) := by
  rw [← ha.3]
  cases a with
  | nil => rfl
  | cons d l =>
    have : 2 ^ w = 2 * 2 ^ (w - 1) := by rw [← pow_succ']; congr 1; omega
    have h2 : (d + 2 ^ w * val w l) % 2 = d % 2 := by
      rw [this, Nat.mul_assoc, Nat.add_mul_mod_self_left]
    simp only [isOdd, val, h2]
    by_cases h : d % 2 = 1 <;> simp [h]

end ELC.Ubig
