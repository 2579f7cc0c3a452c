import Verif.Ubig.Basic

/-! Addition, subtraction, increment, native conversions. -/
namespace ELC.Ubig
open Spec (val NoLeadingZero Stores)

/-! ### addition into a buffer -/

theorem addInto_some {w : Nat} {buf b r : List Nat} {c : Bool} (hbuf : Spec.Digits w buf)
    (hb : Spec.Digits w b) (h : addInto w buf b c = some r) :
    Spec.Digits w r ∧ r.length = buf.length ∧ val w r = val w buf + val w b + c.toNat := by
  revert r
  fun_induction addInto w buf b c with
  | case1 buf =>
    intro r h
    simp at h; subst h; simp [val, hbuf]
  | case2 => intro r h; simp at h
  | case3 x buf q ih =>
    intro r h
    rw [digits_cons] at hbuf
    obtain ⟨s, hs, rfl⟩ := Option.map_eq_some_iff.1 h
    obtain ⟨h1, h2, h3⟩ := ih hbuf.2 hb hs
    have hq := addCarry1_spec (c := true) hbuf.1
    refine ⟨digits_cons.2 ⟨hq.1, h1⟩, by simp [h2], ?_⟩
    simp only [val, h3, Nat.mul_add, Nat.mul_zero]
    have := hq.2
    simp only [q]
    omega
  | case4 => intro r h; simp at h
  | case5 x buf y b c q ih =>
    intro r h
    rw [digits_cons] at hbuf hb
    obtain ⟨s, hs, rfl⟩ := Option.map_eq_some_iff.1 h
    obtain ⟨h1, h2, h3⟩ := ih hbuf.2 hb.2 hs
    have hq := addCarry_spec (c := c) hbuf.1 hb.1
    refine ⟨digits_cons.2 ⟨hq.1, h1⟩, by simp [h2], ?_⟩
    simp only [val, h3, Nat.mul_add]
    have := hq.2
    simp only [q]
    omega

theorem addInto_isSome {w : Nat} {buf b : List Nat} {c : Bool} (hbuf : Spec.Digits w buf)
    (hb : Spec.Digits w b) (hl : b.length ≤ buf.length)
    (hv : val w buf + val w b + c.toNat < (2 ^ w) ^ buf.length) : ∃ r, addInto w buf b c = some r := by
  fun_induction addInto w buf b c with
  | case1 buf => exact ⟨_, rfl⟩
  | case2 => simp [val] at hv
  | case3 x buf q ih =>
    rw [digits_cons] at hbuf
    have hq := addCarry1_spec (c := true) hbuf.1
    obtain ⟨r, hr⟩ := ih hbuf.2 hb (by simp) (by
      have h2 := hq.2
      simp only [val, Nat.add_zero, List.length_cons, pow_succ] at hv ⊢
      have : 2 ^ w * (val w buf + q.2.toNat) < 2 ^ w * (2 ^ w) ^ buf.length := by
        rw [Nat.mul_add, Nat.mul_comm (2 ^ w) ((2 ^ w) ^ _)]; simp only [q]; omega
      exact Nat.lt_of_mul_lt_mul_left this)
    exact ⟨_, by rw [hr]; rfl⟩
  | case4 => simp at hl
  | case5 x buf y b c q ih =>
    rw [digits_cons] at hbuf hb
    have hq := addCarry_spec (c := c) hbuf.1 hb.1
    obtain ⟨r, hr⟩ := ih hbuf.2 hb.2 (by simpa using hl) (by
      have h2 := hq.2
      simp only [val, List.length_cons, pow_succ] at hv ⊢
      have : 2 ^ w * (val w buf + val w b + q.2.toNat) < 2 ^ w * (2 ^ w) ^ buf.length := by
        rw [Nat.mul_add, Nat.mul_add, Nat.mul_comm (2 ^ w) ((2 ^ w) ^ _)]; simp only [q]; omega
      exact Nat.lt_of_mul_lt_mul_left this)
    exact ⟨_, by rw [hr]; rfl⟩

theorem getLastD_lt {w : Nat} {l : List Nat} (h : Spec.Digits w l) : l.getLastD 0 < 2 ^ w := by
  rw [List.getLastD_eq_getLast?]
  cases hl : l.getLast? with
  | none => exact pw w
  | some d => exact h d (List.mem_of_getLast? hl)

/-- Splitting off the most significant digit. -/
theorem val_last {w : Nat} {l : List Nat} (h : Spec.Digits w l) (hne : l ≠ []) :
    l.getLastD 0 * (2 ^ w) ^ (l.length - 1) ≤ val w l ∧
    val w l < (l.getLastD 0 + 1) * (2 ^ w) ^ (l.length - 1) := by
  have hd : l = l.dropLast ++ [l.getLastD 0] := by
    rw [List.getLastD_eq_getLast?, List.getLast?_eq_some_getLast hne]
    simp [List.dropLast_concat_getLast]
  have hlen : l.dropLast.length = l.length - 1 := List.length_dropLast
  have hv := congrArg (val w) hd
  rw [val_append, hlen] at hv
  simp only [val, Nat.mul_zero, Nat.add_zero] at hv
  have hdl : val w l.dropLast < (2 ^ w) ^ (l.length - 1) := by
    rw [← hlen]; exact val_lt (fun d hdd => h d (List.dropLast_subset l hdd))
  constructor
  · rw [hv, Nat.mul_comm]; omega
  · rw [hv, Nat.add_mul, Nat.one_mul, Nat.mul_comm (l.getLastD 0)]; omega

theorem safetyDiff_enough {w : Nat} {a b : List Nat} (ha : Spec.Digits w a) (hb : Spec.Digits w b)
    (hl : b.length ≤ a.length) (hbne : b ≠ []) :
    val w a + val w b < (2 ^ w) ^ (a.length + safetyDiff w a b) := by
  have hva := val_lt ha
  have hvb := val_lt hb
  have hp := pw w
  have hpl : (2 ^ w) ^ b.length ≤ (2 ^ w) ^ a.length := Nat.pow_le_pow_right hp hl
  have two : w ≠ 0 → 2 ≤ 2 ^ w := fun h => by
    calc 2 = 2 ^ 1 := rfl
      _ ≤ 2 ^ w := Nat.pow_le_pow_right (by decide) (by omega)
  have hw0 : w ≠ 0 ∨ (w = 0) := by omega
  -- base one: all values are zero
  rcases hw0 with hw | hw
  swap
  · subst hw
    simp only [pow_zero, one_pow] at hva hvb ⊢
    omega
  have h2 := two hw
  have hgrow : val w a + val w b < (2 ^ w) ^ (a.length + 1) := by
    rw [pow_succ]
    calc val w a + val w b < (2 ^ w) ^ a.length + (2 ^ w) ^ a.length := by omega
      _ = (2 ^ w) ^ a.length * 2 := by ring
      _ ≤ _ := Nat.mul_le_mul_left _ h2
  unfold safetyDiff
  split
  · next hne =>
    have hlt : b.length < a.length := by omega
    split
    · next hany =>
      -- some high digit is not maximal
      rw [Nat.add_zero]
      have hsplit := val_take_drop w a b.length hl
      have hlow : val w (a.take b.length) < (2 ^ w) ^ b.length := by
        have := val_lt (digits_take b.length ha)
        rwa [List.length_take, Nat.min_eq_left hl] at this
      have hdig := digits_drop b.length ha
      have hhigh : val w (a.drop b.length) + 1 < (2 ^ w) ^ (a.length - b.length) := by
        have key : ∀ l : List Nat, Spec.Digits w l → l.any (fun d => d != 2 ^ w - 1) = true →
            val w l + 1 < (2 ^ w) ^ l.length := by
          intro l
          induction l with
          | nil => intro _ h; simp at h
          | cons x l ih =>
            intro hd hany
            rw [digits_cons] at hd
            simp only [List.any_cons, Bool.or_eq_true, bne_iff_ne] at hany
            have hvl := val_lt hd.2
            simp only [val, List.length_cons, pow_succ]
            by_cases hx : x = 2 ^ w - 1
            · have := ih hd.2 (by rcases hany with h | h; exact absurd hx h; exact h)
              have h3 : 2 ^ w * (val w l + 2) ≤ 2 ^ w * (2 ^ w) ^ l.length :=
                Nat.mul_le_mul_left _ this
              rw [Nat.mul_comm ((2 ^ w) ^ _)]
              rw [Nat.mul_add] at h3; omega
            · have h3 : 2 ^ w * (val w l + 1) ≤ 2 ^ w * (2 ^ w) ^ l.length :=
                Nat.mul_le_mul_left _ hvl
              rw [Nat.mul_comm ((2 ^ w) ^ _)]
              rw [Nat.mul_add] at h3; omega
        have := key _ hdig hany
        rwa [List.length_drop] at this
      have h4 : (2 ^ w) ^ b.length * (val w (a.drop b.length) + 2) ≤
          (2 ^ w) ^ b.length * (2 ^ w) ^ (a.length - b.length) := Nat.mul_le_mul_left _ hhigh
      rw [← pow_add, show b.length + (a.length - b.length) = a.length by omega, Nat.mul_add] at h4
      omega
    · exact hgrow
  · next heq =>
    have heq : a.length = b.length := by omega
    have hane : a ≠ [] := by rintro rfl; simp at heq; exact hbne (List.length_eq_zero_iff.1 heq.symm)
    obtain ⟨_, hla⟩ := val_last ha hane
    obtain ⟨_, hlb⟩ := val_last hb hbne
    have hda := getLastD_lt ha
    have hdb := getLastD_lt hb
    by_cases hs : a.getLastD 0 + b.getLastD 0 + 1 < 2 ^ w
    · rw [Nat.div_eq_of_lt hs, Nat.add_zero]
      rw [heq] at hla ⊢
      have hlen : b.length = b.length - 1 + 1 := by
        have := List.length_pos_iff.2 hbne; omega
      have h5 : (a.getLastD 0 + b.getLastD 0 + 2) * (2 ^ w) ^ (b.length - 1) ≤
          2 ^ w * (2 ^ w) ^ (b.length - 1) := Nat.mul_le_mul_right _ hs
      have h6 : (2 ^ w) ^ b.length = 2 ^ w * (2 ^ w) ^ (b.length - 1) := by
        conv_lhs => rw [hlen, pow_succ]
        ring
      rw [h6]
      have h7 : (a.getLastD 0 + b.getLastD 0 + 2) * (2 ^ w) ^ (b.length - 1) =
        (a.getLastD 0 + 1) * (2 ^ w) ^ (b.length - 1) +
        (b.getLastD 0 + 1) * (2 ^ w) ^ (b.length - 1) := by ring
      omega
    · have : 1 ≤ (a.getLastD 0 + b.getLastD 0 + 1) / 2 ^ w :=
        (Nat.one_le_div_iff hp).2 (by omega)
      exact Nat.lt_of_lt_of_le hgrow (Nat.pow_le_pow_right hp (by omega))

theorem add_ordered {w : Nat} {a b : List Nat} (ha : Spec.Digits w a) (hb : Spec.Digits w b)
    (hl : b.length ≤ a.length) (hbne : b ≠ []) :
    ∃ r, (addInto w (a ++ List.replicate (safetyDiff w a b) 0) b false) = some r ∧
      Spec.Digits w r ∧ r.length = a.length + safetyDiff w a b ∧ val w r = val w a + val w b := by
  have hd : Spec.Digits w (a ++ List.replicate (safetyDiff w a b) 0) :=
    digits_append.2 ⟨ha, digits_replicate_zero _ _⟩
  have hv : val w (a ++ List.replicate (safetyDiff w a b) 0) = val w a := by
    rw [val_append, val_replicate_zero, Nat.mul_zero, Nat.add_zero]
  obtain ⟨r, hr⟩ := addInto_isSome (c := false) hd hb (by simp; omega) (by
    rw [hv]; simpa using safetyDiff_enough ha hb hl hbne)
  obtain ⟨h1, h2, h3⟩ := addInto_some hd hb hr
  exact ⟨r, hr, h1, by simpa using h2, by rw [h3, hv]; simp⟩

theorem nlz_of_val_ge {w : Nat} {r : List Nat} (hr : Spec.Digits w r) (hne : r ≠ [])
    (h : (2 ^ w) ^ (r.length - 1) ≤ val w r) : NoLeadingZero r := by
  intro d hd hd0
  subst hd0
  obtain ⟨_, h2⟩ := val_last hr hne
  rw [List.getLastD_eq_getLast?, hd] at h2
  simp at h2; omega

theorem nlz_ne_nil_of_length {l : List Nat} (h : l.length ≠ 0) : l ≠ [] := by
  rintro rfl; exact h rfl

theorem add_stores {w : Nat} {a b : List Nat} {x y : Nat} (ha : Stores w a x) (hb : Stores w b y) :
    ∃ r, add w a b = some r ∧ Stores w r (x + y) := by
  have main : ∀ (a b : List Nat) (x y : Nat), Stores w a x → Stores w b y → b.length ≤ a.length →
      ∃ r, (if b.length = 0 then some a
        else (addInto w (a ++ List.replicate (safetyDiff w a b) 0) b false).map
          fun r => if safetyDiff w a b ≠ 0 then shrink r else r) = some r ∧ Stores w r (x + y) := by
    intro a b x y ha hb hl
    by_cases h0 : b.length = 0
    · have : b = [] := List.length_eq_zero_iff.1 h0
      subst this
      have hy : y = 0 := by rw [← hb.3]; rfl
      subst hy
      exact ⟨a, by simp, by simpa using ha⟩
    · obtain ⟨r, hr, h1, h2, h3⟩ := add_ordered ha.1 hb.1 hl (nlz_ne_nil_of_length h0)
      rw [ha.3, hb.3] at h3
      refine ⟨if safetyDiff w a b ≠ 0 then shrink r else r, by
        simp only [h0, if_false, hr, Option.map_some], ?_⟩
      split
      · exact stores_shrink h1 h3
      · next hd =>
        refine ⟨h1, ?_, h3⟩
        have hd : safetyDiff w a b = 0 := by omega
        have hane : a ≠ [] := nlz_ne_nil_of_length (by omega)
        have hge := val_pos_of_nlz (w := w) ha.2 hane
        apply nlz_of_val_ge h1
        · apply nlz_ne_nil_of_length; omega
        · rw [h2, hd, Nat.add_zero, h3]; rw [ha.3] at hge; omega
  unfold add
  by_cases hlt : a.length < b.length
  · simp only [hlt, if_true]
    obtain ⟨r, h1, h2⟩ := main b a y x hb ha (by omega)
    exact ⟨r, h1, by rwa [Nat.add_comm]⟩
  · simp only [hlt, if_false]
    exact main a b x y ha hb (by omega)

theorem addInto_comm_len {w : Nat} {a b : List Nat} {d : Nat} (ha : Spec.Digits w a)
    (hb : Spec.Digits w b) (hl : b.length ≤ a.length + d)
    (hv : val w a + val w b < (2 ^ w) ^ (a.length + d)) :
    ∃ r, addInto w (a ++ List.replicate d 0) b false = some r ∧ Spec.Digits w r ∧
      r.length = a.length + d ∧ val w r = val w a + val w b := by
  have hd : Spec.Digits w (a ++ List.replicate d 0) :=
    digits_append.2 ⟨ha, digits_replicate_zero _ _⟩
  have hval : val w (a ++ List.replicate d 0) = val w a := by
    rw [val_append, val_replicate_zero, Nat.mul_zero, Nat.add_zero]
  obtain ⟨r, hr⟩ := addInto_isSome (c := false) hd hb (by simpa using hl) (by
    rw [hval]; simpa using hv)
  obtain ⟨h1, h2, h3⟩ := addInto_some hd hb hr
  exact ⟨r, hr, h1, by simpa using h2, by rw [h3, hval]; simp⟩

/-- `add_to_base` on operands that need not be shrunk: exact, shrunk when the second operand has no
leading zero. -/
theorem addAssign_digits {w : Nat} {a b : List Nat} (ha : Spec.Digits w a) (hb : Spec.Digits w b) :
    ∃ r, addAssign w a b = some r ∧ Spec.Digits w r ∧ val w r = val w a + val w b ∧
      (NoLeadingZero a → NoLeadingZero b → NoLeadingZero r) := by
  unfold addAssign
  by_cases h0 : b.length = 0
  · have : b = [] := List.length_eq_zero_iff.1 h0
    subst this
    exact ⟨a, by simp, ha, by simp [val], fun h _ => h⟩
  simp only [h0, if_false]
  by_cases h1 : a.length = 0
  · have : a = [] := List.length_eq_zero_iff.1 h1
    subst this
    exact ⟨b, by simp, hb, by simp [val], fun _ h => h⟩
  simp only [h1, if_false]
  have hsz : a.length ≤ safetySize w a b ∧ b.length ≤ safetySize w a b ∧
      val w a + val w b < (2 ^ w) ^ safetySize w a b := by
    unfold safetySize
    split
    · next hlt =>
      have := safetyDiff_enough hb ha (by omega) (nlz_ne_nil_of_length h1)
      refine ⟨by omega, by omega, by omega⟩
    · next hge =>
      have := safetyDiff_enough ha hb (by omega) (nlz_ne_nil_of_length h0)
      refine ⟨by omega, by omega, by omega⟩
  obtain ⟨s1, s2, s3⟩ := hsz
  obtain ⟨r, hr, r1, r2, r3⟩ := addInto_comm_len (d := safetySize w a b - a.length) ha hb
    (by omega) (by rwa [show a.length + (safetySize w a b - a.length) = safetySize w a b by omega])
  refine ⟨_, by rw [hr]; rfl, ?_, ?_, ?_⟩
  · simp only; split
    · exact digits_shrink r1
    · exact r1
  · simp only; split
    · rw [val_shrink, r3]
    · exact r3
  · intro hna _
    simp only; split
    · exact nlz_shrink r
    · next hd =>
      have hd : safetySize w a b - a.length = 0 := by omega
      have hge := val_pos_of_nlz (w := w) hna (nlz_ne_nil_of_length h1)
      apply nlz_of_val_ge r1
      · apply nlz_ne_nil_of_length; omega
      · rw [r2, r3, hd, Nat.add_zero]; omega

/-! ### subtraction -/

theorem subFrom_some {w : Nat} {buf b r : List Nat} {c : Bool} (hbuf : Spec.Digits w buf)
    (hb : Spec.Digits w b) (h : subFrom w buf b c = some r) :
    Spec.Digits w r ∧ r.length = buf.length ∧ val w r + val w b + c.toNat = val w buf := by
  revert r
  fun_induction subFrom w buf b c with
  | case1 buf =>
    intro r h
    simp at h; subst h; simp [val, hbuf]
  | case2 => intro r h; simp at h
  | case3 x buf q ih =>
    intro r h
    rw [digits_cons] at hbuf
    obtain ⟨s, hs, rfl⟩ := Option.map_eq_some_iff.1 h
    obtain ⟨h1, h2, h3⟩ := ih hbuf.2 hb hs
    have hq := subBorrow1_spec (c := true) hbuf.1
    refine ⟨digits_cons.2 ⟨hq.1, h1⟩, by simp [h2], ?_⟩
    simp only [val, ← h3, Nat.mul_add, Nat.mul_zero]
    have := hq.2
    simp only [q]
    omega
  | case4 => intro r h; simp at h
  | case5 x buf y b c q ih =>
    intro r h
    rw [digits_cons] at hbuf hb
    obtain ⟨s, hs, rfl⟩ := Option.map_eq_some_iff.1 h
    obtain ⟨h1, h2, h3⟩ := ih hbuf.2 hb.2 hs
    have hq := subBorrow_spec (c := c) hbuf.1 hb.1
    refine ⟨digits_cons.2 ⟨hq.1, h1⟩, by simp [h2], ?_⟩
    simp only [val, ← h3, Nat.mul_add]
    have := hq.2
    simp only [q]
    omega

theorem subFrom_isSome {w : Nat} {buf b : List Nat} {c : Bool} (hbuf : Spec.Digits w buf)
    (hb : Spec.Digits w b) (hl : b.length ≤ buf.length)
    (hv : val w b + c.toNat ≤ val w buf) : ∃ r, subFrom w buf b c = some r := by
  fun_induction subFrom w buf b c with
  | case1 buf => exact ⟨_, rfl⟩
  | case2 => simp [val] at hv
  | case3 x buf q ih =>
    rw [digits_cons] at hbuf
    have hq := subBorrow1_spec (c := true) hbuf.1
    obtain ⟨r, hr⟩ := ih hbuf.2 hb (by simp) (by
      have h2 := hq.2
      simp only [val] at hv ⊢
      have : 2 ^ w * q.2.toNat < 2 ^ w * (val w buf + 1) := by
        rw [Nat.mul_add]; simp only [q]; simp at h2 hv ⊢; omega
      have := Nat.lt_of_mul_lt_mul_left this
      simp only [q] at *; omega)
    exact ⟨_, by rw [hr]; rfl⟩
  | case4 => simp at hl
  | case5 x buf y b c q ih =>
    rw [digits_cons] at hbuf hb
    have hq := subBorrow_spec (c := c) hbuf.1 hb.1
    obtain ⟨r, hr⟩ := ih hbuf.2 hb.2 (by simpa using hl) (by
      have h2 := hq.2
      simp only [val] at hv ⊢
      have : 2 ^ w * (val w b + q.2.toNat) < 2 ^ w * (val w buf + 1) := by
        rw [Nat.mul_add, Nat.mul_add]; simp only [q]; omega
      have := Nat.lt_of_mul_lt_mul_left this
      simp only [q] at *; omega)
    exact ⟨_, by rw [hr]; rfl⟩

theorem subBase_stores {w : Nat} {a b : List Nat} {x y : Nat} (ha : Spec.Digits w a)
    (hax : val w a = x) (hb : Stores w b y) (h : y ≤ x) :
    ∃ r, subBase w a b = some r ∧ Stores w r (x - y) := by
  have hl : b.length ≤ a.length := by
    apply length_le_of_val_lt hb.2
    rw [hb.3]; exact Nat.lt_of_le_of_lt (hax ▸ h) (val_lt ha)
  obtain ⟨r, hr⟩ := subFrom_isSome (c := false) ha hb.1 hl (by rw [hb.3, hax]; simpa using h)
  obtain ⟨h1, _, h3⟩ := subFrom_some ha hb.1 hr
  refine ⟨shrink r, by rw [subBase, hr]; rfl, stores_shrink h1 ?_⟩
  rw [hb.3, hax] at h3; simp at h3; omega

theorem sub_stores {w : Nat} {a b : List Nat} {x y : Nat} (ha : Stores w a x) (hb : Stores w b y) :
    ∃ r, sub w a b = some r ∧ Stores w r (x - y) := by
  unfold sub
  rw [cmp_val ha hb]
  by_cases h : x < y
  · rw [Nat.compare_eq_lt.2 h]
    exact ⟨[], by simp, by rw [show x - y = 0 by omega]; exact stores_nil w⟩
  · have : compare x y ≠ .lt := by rw [Ne, Nat.compare_eq_lt]; exact h
    simp only [this, if_false]
    exact subBase_stores ha.1 ha.3 hb (by omega)

/-! ### ++ and -- -/

theorem addOne_stores {w : Nat} (hw : 0 < w) {a : List Nat} {x : Nat} (ha : Stores w a x) :
    Stores w (addOne w a) (x + 1) := by
  have one_lt : 1 < 2 ^ w := Nat.one_lt_two_pow (by omega)
  induction a generalizing x with
  | nil =>
    have : x = 0 := by rw [← ha.3]; rfl
    subst this
    exact ⟨digits_cons.2 ⟨one_lt, digits_nil w⟩, nlz_singleton (by decide), by simp [addOne, val]⟩
  | cons d l ih =>
    obtain ⟨h1, h2, h3⟩ := ha
    rw [digits_cons] at h1
    simp only [val] at h3
    have ih := ih ⟨h1.2, nlz_tail h2, rfl⟩
    simp only [addOne]
    by_cases hd : d + 1 < 2 ^ w
    · rw [Nat.mod_eq_of_lt hd]
      simp only [ne_eq, Nat.add_eq_zero_iff, Nat.one_ne_zero, and_false, not_false_eq_true, if_true]
      refine ⟨digits_cons.2 ⟨hd, h1.2⟩, ?_, by simp only [val]; omega⟩
      cases l with
      | nil => exact nlz_singleton (by omega)
      | cons y l => exact nlz_cons_cons.2 (nlz_cons_cons.1 h2)
    · have : d + 1 = 2 ^ w := by omega
      simp only [this, Nat.mod_self, ne_eq, not_true_eq_false, if_false]
      refine ⟨digits_cons.2 ⟨pw w, ih.1⟩, ?_, by
        simp only [val, ih.3, Nat.mul_add]; omega⟩
      have hne : addOne w l ≠ [] := by
        cases l <;> simp [addOne]; split <;> simp
      rw [show (0 :: addOne w l) = [0] ++ addOne w l from rfl, nlz_append hne]
      exact ih.2

theorem subOne_stores {w : Nat} {a : List Nat} {x : Nat} (ha : Stores w a x)
    (hlow : a.headD 1 ≠ 0) : Stores w (subOne w a) (x - 1) := by
  cases a with
  | nil =>
    have : x = 0 := by rw [← ha.3]; rfl
    subst this
    exact stores_nil w
  | cons d l =>
    obtain ⟨h1, h2, h3⟩ := ha
    rw [digits_cons] at h1
    simp only [val] at h3
    simp only [List.headD_cons] at hlow
    simp only [subOne, ne_eq, hlow, not_false_eq_true, if_true, decDigit]
    split
    · next h => obtain ⟨ha, hb⟩ := h; subst hb; simp only [val] at h3; rw [show x - 1 = 0 by omega]
                exact stores_nil w
    · next h =>
      refine ⟨digits_cons.2 ⟨by omega, h1.2⟩, ?_, by simp only [val]; omega⟩
      cases l with
      | nil => exact nlz_singleton (by simpa using h)
      | cons y l => exact nlz_cons_cons.2 (nlz_cons_cons.1 h2)

/-! ### native integers -/

theorem ofNativeLoop_stores {w : Nat} (hw : 0 < w) (s v : Nat) (hv : v < (2 ^ w) ^ s) :
    ∃ l, ofNativeLoop w s v = some l ∧ Stores w l v := by
  induction s generalizing v with
  | zero =>
    simp at hv; subst hv
    exact ⟨[], by simp [ofNativeLoop], stores_nil w⟩
  | succ s ih =>
    cases v with
    | zero => exact ⟨[], by simp [ofNativeLoop], stores_nil w⟩
    | succ v =>
      have one_lt : 1 < 2 ^ w := Nat.one_lt_two_pow (by omega)
      obtain ⟨l, hl, h1, h2, h3⟩ := ih ((v + 1) / 2 ^ w) (by
        rw [pow_succ, Nat.mul_comm] at hv
        exact Nat.div_lt_of_lt_mul hv)
      refine ⟨_, by rw [ofNativeLoop, hl]; rfl, digits_cons.2 ⟨Nat.mod_lt _ (pw w), h1⟩, ?_, ?_⟩
      · cases l with
        | nil =>
          apply nlz_singleton
          simp only [val] at h3
          have := Nat.mod_add_div (v + 1) (2 ^ w)
          rw [← h3] at this; simp at this; omega
        | cons y l => exact nlz_cons_cons.2 h2
      · simp only [val, h3]; exact Nat.mod_add_div _ _

theorem ofNative_stores {w : Nat} (hw : 0 < w) (t v : Nat) (hv : v < 2 ^ t) :
    ∃ l, ofNative w t v = some l ∧ Stores w l v := by
  apply ofNativeLoop_stores hw
  refine Nat.lt_of_lt_of_le hv ?_
  rw [← pow_mul]
  apply Nat.pow_le_pow_right (by decide)
  have := Nat.div_add_mod (t + w - 1) w
  have := Nat.mod_lt (t + w - 1) hw
  omega

theorem convertTo_val (w t : Nat) (l : List Nat) : convertTo w t l = val w l % 2 ^ t := by
  induction l with
  | nil => simp [convertTo, val]
  | cons x l ih =>
    simp only [convertTo, val, ih]
    rw [Nat.add_comm x, Nat.add_mod, Nat.mod_mod, Nat.mul_comm (2 ^ w), Nat.mul_mod, Nat.mod_mod,
      ← Nat.mul_mod, ← Nat.add_mod]

/-! ### += native -/

theorem addNativeTail_stores {w : Nat} (room tmp : Nat) (hv : tmp < (2 ^ w) ^ room) :
    ∃ l, addNativeTail w room tmp false = some l ∧ Stores w l tmp := by
  induction room generalizing tmp with
  | zero =>
    simp at hv; subst hv
    exact ⟨[], by simp [addNativeTail], stores_nil w⟩
  | succ s ih =>
    cases tmp with
    | zero => exact ⟨[], by simp [addNativeTail], stores_nil w⟩
    | succ v =>
      have hc : addCarry1 w ((v + 1) % 2 ^ w) false = ((v + 1) % 2 ^ w, false) := by
        simp [addCarry1]
      obtain ⟨l, hl, h1, h2, h3⟩ := ih ((v + 1) >>> w) (by
        rw [pow_succ, Nat.mul_comm] at hv
        rw [Nat.shiftRight_eq_div_pow]
        exact Nat.div_lt_of_lt_mul hv)
      refine ⟨_, by rw [addNativeTail]; simp only [hc, hl]; rfl,
        digits_cons.2 ⟨Nat.mod_lt _ (pw w), h1⟩, ?_, ?_⟩
      · cases l with
        | nil =>
          apply nlz_singleton
          simp only [val, Nat.shiftRight_eq_div_pow] at h3
          have := Nat.mod_add_div (v + 1) (2 ^ w)
          rw [← h3] at this; simp at this; omega
        | cons y l => exact nlz_cons_cons.2 h2
      · simp only [val, h3, Nat.shiftRight_eq_div_pow]; exact Nat.mod_add_div _ _

theorem addCarry_no_overflow {ct x tmp : Nat} (h : x + tmp < 2 ^ ct) :
    addCarry ct x tmp false = (x + tmp, false) := by
  unfold addCarry
  have hm : x % 2 ^ ct = x := Nat.mod_eq_of_lt (by omega)
  simp only [Bool.toNat_false, Nat.add_zero, hm, Nat.mod_eq_of_lt h]
  by_cases hx : x = 0
  · subst hx; simp
  · simp [hx]

theorem addNativeLoop_stores {w ct : Nat} (hw : 0 < w) (hct : w < ct) {l : List Nat} {x : Nat}
    (hl : Stores w l x) (tmp : Nat) (ht : tmp + 2 ^ w ≤ 2 ^ ct) :
    ∃ r, addNativeLoop w ct l tmp false = some r ∧ Stores w r (x + tmp) := by
  induction l generalizing x tmp with
  | nil =>
    have : x = 0 := by rw [← hl.3]; rfl
    subst this
    simp only [addNativeLoop, Nat.zero_add]
    apply addNativeTail_stores
    have hpw := pw w
    refine Nat.lt_of_lt_of_le (by omega : tmp < 2 ^ ct) ?_
    rw [← pow_mul]
    apply Nat.pow_le_pow_right (by decide)
    have := Nat.div_add_mod (ct + w - 1) w
    have := Nat.mod_lt (ct + w - 1) hw
    omega
  | cons d l ih =>
    obtain ⟨h1, h2, h3⟩ := hl
    rw [digits_cons] at h1
    simp only [val] at h3
    by_cases h0 : tmp = 0
    · subst h0
      exact ⟨d :: l, by simp [addNativeLoop], digits_cons.2 h1, h2, by simp only [val]; omega⟩
    · have hc := addCarry_no_overflow (ct := ct) (x := d) (tmp := tmp) (by omega)
      have hsh : (d + tmp) >>> w + 2 ^ w ≤ 2 ^ ct := by
        rw [Nat.shiftRight_eq_div_pow]
        have h4 : 2 ^ ct = 2 ^ w * 2 ^ (ct - w) := by rw [← pow_add]; congr 1; omega
        have h5 : (d + tmp) / 2 ^ w < 2 ^ (ct - w) := by
          apply Nat.div_lt_of_lt_mul; rw [← h4]; omega
        have h6 : 2 ≤ 2 ^ (ct - w) := by
          calc 2 = 2 ^ 1 := rfl
            _ ≤ _ := Nat.pow_le_pow_right (by decide) (by omega)
        have h7 : 2 ≤ 2 ^ w := by
          calc 2 = 2 ^ 1 := rfl
            _ ≤ _ := Nat.pow_le_pow_right (by decide) (by omega)
        rw [h4]
        nlinarith
      obtain ⟨r, hr, r1, r2, r3⟩ := ih ⟨h1.2, nlz_tail h2, rfl⟩ ((d + tmp) >>> w) hsh
      refine ⟨_, by simp only [addNativeLoop, h0, if_false, hc, hr]; rfl,
        digits_cons.2 ⟨Nat.mod_lt _ (pw w), r1⟩, ?_, ?_⟩
      · cases r with
        | nil =>
          apply nlz_singleton
          simp only [val, Nat.shiftRight_eq_div_pow] at r3
          have := Nat.mod_add_div (d + tmp) (2 ^ w)
          have h8 : (d + tmp) / 2 ^ w = 0 := (Nat.add_eq_zero_iff.1 r3.symm).2
          rw [h8, Nat.mul_zero, Nat.add_zero] at this
          rw [this]; omega
        | cons y r => exact nlz_cons_cons.2 r2
      · simp only [val, r3, Nat.shiftRight_eq_div_pow, Nat.mul_add]
        have := Nat.mod_add_div (d + tmp) (2 ^ w)
        omega

end ELC.Ubig
