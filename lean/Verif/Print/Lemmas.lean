import Verif.Print.Model
import Verif.Convert.Props
import Verif.Numeral.Lemmas
import Verif.Ubig.Props
/-! Lemmas for Props. -/
namespace ELC.Print
open ELC.Ubig.Spec (val Stores NoLeadingZero)
open ELC.Numeral (Rep State)
open ELC.Numeral.Spec

/-! ### digit arrays -/

theorem stores_length_mono {w : Nat} {a b : List Nat} {x y : Nat} (ha : Stores w a x) (hb : Stores w b y) (h : x ≤ y) :
    a.length ≤ b.length := by
  apply Ubig.length_le_of_val_lt (w := w) ha.2
  have := Ubig.val_lt hb.1
  rw [hb.3] at this
  rw [ha.3]
  omega

theorem stores_length_lt {w : Nat} {a b : List Nat} {x y : Nat} (ha : Stores w a x) (hb : Stores w b y)
    (h : a.length < b.length) : x < y := by
  have := Ubig.length_lt_of_val_lt ha.1 hb.2 h
  rwa [ha.3, hb.3] at this

theorem stores_mul_length {w : Nat} {a b r : List Nat} {x y : Nat} (ha : Stores w a x) (hb : Stores w b y)
    (hr : Stores w r (x * y)) : r.length ≤ a.length + b.length := by
  apply Ubig.length_le_of_val_lt (w := w) hr.2
  rw [hr.3, pow_add]
  have h1 := Ubig.val_lt ha.1
  have h2 := Ubig.val_lt hb.1
  rw [ha.3] at h1
  rw [hb.3] at h2
  exact Nat.mul_lt_mul'' h1 h2

/-- The question asked before splitting: does the number fit in 64 bits? -/
theorem safe_iff {w : Nat} (hw : 0 < w) (hd : w ∣ 64) {l : List Nat} {x : Nat} (h : Stores w l x) :
    Convert.ubigSafe w ⟨false, 3⟩ l = true ↔ x < 2 ^ 64 := by
  rw [Convert.ubig_safe_partial hw h ⟨false, 3⟩ (by simpa [Convert.NType.bits, Bits.bitsOf] using hd)]
  unfold Convert.Spec.Fits Convert.NType.bits Bits.bitsOf
  simp only [Bool.false_eq_true, if_false]
  constructor
  · rintro ⟨_, h⟩
    norm_num at h ⊢
    omega
  · intro h
    refine ⟨by omega, ?_⟩
    norm_num at h ⊢
    omega

/-! ### the split point of a number -/

theorem splitBase_spec {w size r : Nat} (fuel : Nat) {base b : List Nat} {len l : Nat} (hb : Stores w base (r ^ len))
    (hl : 1 ≤ len) (h : splitBase w size fuel base len = some (b, l)) :
    Stores w b (r ^ l) ∧ 1 ≤ l ∧
      ((b = base ∧ l = len) ∨ ∃ k, 3 * k < size ∧ b.length ≤ 2 * k) := by
  induction fuel generalizing base len with
  | zero => cases h
  | succ fuel ih =>
    unfold splitBase at h
    split at h
    · next hs =>
      obtain ⟨m, hm, h⟩ := Option.bind_eq_some_iff.1 h
      have sm := Ubig.mul_partial hb hb hm
      have e : r ^ len * r ^ len = r ^ (len * 2) := by rw [← pow_add]; congr 1; omega
      rw [e] at sm
      have hml := stores_mul_length hb hb (by rw [e]; exact sm)
      obtain ⟨h1, h2, h3⟩ := ih sm (by omega) h
      refine ⟨h1, h2, Or.inr ?_⟩
      rcases h3 with ⟨rfl, _⟩ | h3
      · exact ⟨base.length, by omega, by omega⟩
      · exact h3
    · injection h with h
      injection h with h1 h2
      subst h1 h2
      exact ⟨hb, hl, Or.inl ⟨rfl, rfl⟩⟩

theorem splitBase_isSome {w size r : Nat} (hr : 2 ≤ r) (hs : size ≤ 190) (fuel : Nat) {base : List Nat}
    {len : Nat} (hb : Stores w base (r ^ len)) (hl : 1 ≤ len) (hf : w * size < fuel + len) (hf0 : 0 < fuel) :
    ∃ b l, splitBase w size fuel base len = some (b, l) := by
  induction fuel generalizing base len with
  | zero => omega
  | succ fuel ih =>
    unfold splitBase
    split
    · next hlt =>
      obtain ⟨m, hm, sm⟩ := Ubig.mul_small_correct hb hb (by omega)
      rw [hm]
      have e : r ^ len * r ^ len = r ^ (len * 2) := by rw [← pow_add]; congr 1; omega
      rw [e] at sm
      have hlen : len < w * base.length := by
        have h1 := Ubig.val_lt hb.1
        rw [hb.3, ← pow_mul] at h1
        have h2 : 2 ^ len ≤ r ^ len := Nat.pow_le_pow_left hr _
        exact (Nat.pow_lt_pow_iff_right (by decide)).1 (lt_of_le_of_lt h2 h1)
      have h3 : w * base.length ≤ w * size := Nat.mul_le_mul_left _ (by omega)
      exact ih sm (by omega) (by omega) (by omega)
    · exact ⟨_, _, rfl⟩

/-- More rounds do not change the split point: the bound of `splitOf` is enough. -/
theorem splitBase_mono {w size : Nat} (fuel : Nat) {base : List Nat} {len : Nat} {r : List Nat × Nat}
    (h : splitBase w size fuel base len = some r) (k : Nat) : splitBase w size (fuel + k) base len = some r := by
  induction fuel generalizing base len with
  | zero => cases h
  | succ fuel ih =>
    rw [show fuel + 1 + k = (fuel + k) + 1 by omega]
    unfold splitBase at h ⊢
    split
    · next hs =>
      rw [if_pos hs] at h
      obtain ⟨m, hm, h⟩ := Option.bind_eq_some_iff.1 h
      rw [hm]
      exact ih h
    · next hs =>
      rw [if_neg hs] at h
      exact h

theorem splitBase_fuel {w size r : Nat} (hr : 2 ≤ r) (fuel : Nat) {base : List Nat} {len : Nat}
    (hb : Stores w base (r ^ len)) (hl : 1 ≤ len) (hf : w * size < fuel + len) (hf0 : 0 < fuel) (k : Nat) :
    splitBase w size (fuel + k) base len = splitBase w size fuel base len := by
  induction fuel generalizing base len with
  | zero => omega
  | succ fuel ih =>
    rw [show fuel + 1 + k = (fuel + k) + 1 by omega]
    unfold splitBase
    split
    · next hlt =>
      cases hm : Ubig.mul w base base with
      | none => rfl
      | some m =>
        have sm := Ubig.mul_partial hb hb hm
        have e : r ^ len * r ^ len = r ^ (len * 2) := by rw [← pow_add]; congr 1; omega
        rw [e] at sm
        have hlen : len < w * base.length := by
          have h1 := Ubig.val_lt hb.1
          rw [hb.3, ← pow_mul] at h1
          have h2 : 2 ^ len ≤ r ^ len := Nat.pow_le_pow_left hr _
          exact (Nat.pow_lt_pow_iff_right (by decide)).1 (lt_of_le_of_lt h2 h1)
        have h3 : w * base.length ≤ w * size := Nat.mul_le_mul_left _ (by omega)
        exact ih sm (by omega) (by omega) (by omega)
    · rfl

theorem splitOf_spec {w size r : Nat} (hw : 0 < w) (hr64 : r < 2 ^ 64) {b : List Nat} {l : Nat}
    (h : splitOf w r size = some (b, l)) :
    Stores w b (r ^ l) ∧ 1 ≤ l ∧ ((Stores w b r ∧ l = 1) ∨ ∃ k, 3 * k < size ∧ b.length ≤ 2 * k) := by
  obtain ⟨d, hd, sd⟩ := Ubig.from_native_stores hw 64 r hr64
  unfold splitOf at h
  rw [hd] at h
  obtain ⟨h1, h2, h3⟩ := splitBase_spec _ (by rw [pow_one]; exact sd) (le_refl 1) h
  refine ⟨h1, h2, ?_⟩
  rcases h3 with ⟨rfl, rfl⟩ | h3
  · exact Or.inl ⟨sd, rfl⟩
  · exact Or.inr h3

theorem splitOf_isSome {w size r : Nat} (hw : 0 < w) (hr : 2 ≤ r) (hr64 : r < 2 ^ 64) (hs : size ≤ 190) :
    ∃ b l, splitOf w r size = some (b, l) := by
  obtain ⟨d, hd, sd⟩ := Ubig.from_native_stores hw 64 r hr64
  unfold splitOf
  rw [hd]
  exact splitBase_isSome hr hs _ (by rw [pow_one]; exact sd) (le_refl 1) (by omega) (by omega)

/-- A split point lies below the number. -/
theorem splitOf_lt {w r : Nat} (hw : 0 < w) (hr64 : r < 2 ^ 64) {a b : List Nat} {x l : Nat} (ha : Stores w a x)
    (hx : 2 ^ 64 ≤ x) (h : splitOf w r a.length = some (b, l)) : r ^ l ≤ x := by
  obtain ⟨h1, h2, h3⟩ := splitOf_spec hw hr64 h
  rcases h3 with ⟨_, rfl⟩ | ⟨k, hk, hb⟩
  · rw [pow_one]; omega
  · exact Nat.le_of_lt (stores_length_lt h1 ha (by omega))

/-! ### texts put together -/

theorem padLeft_digits {R : Rep} (dl : List Nat) (l : Nat) :
    Numeral.padLeft l (R.getChar 0) (dl.map R.getChar) = (List.replicate (l - dl.length) 0 ++ dl).map R.getChar := by
  unfold Numeral.padLeft
  split
  · next h =>
    simp only [List.length_map] at h
    rw [show l - dl.length = 0 by omega]; simp
  · simp

theorem numeral_length {R : Rep} {dl : List Nat} {n l : Nat} (hr : 2 ≤ R.radix) (hp : positional R.radix dl = n)
    (hne : dl ≠ []) (h0 : dl = [0] ∨ dl.head? ≠ some 0) (hl : 1 ≤ l) (hn : n < R.radix ^ l) : dl.length ≤ l := by
  rcases h0 with h | h
  · subst h; simpa using hl
  · have := Numeral.positional_ge (r := R.radix) hne h
    rw [hp] at this
    have : dl.length - 1 < l := (Nat.pow_lt_pow_iff_right (a := R.radix) (by omega)).1 (by omega)
    omega

/-- High and low part, the low one filled up with zeros. -/
theorem numeral_append {R : Rep} (hr : 2 ≤ R.radix) {sh sl : List Nat} {vh vl l : Nat} (hl : 1 ≤ l)
    (h1 : Numeral R sh vh) (h2 : Numeral R sl vl) (hvl : vl < R.radix ^ l) (hvh : vh ≠ 0) :
    Numeral R (sh ++ Numeral.padLeft l (R.getChar 0) sl) (vh * R.radix ^ l + vl) := by
  obtain ⟨dh, rfl, dh1, dh2, dh3, dh4⟩ := h1
  obtain ⟨dl, rfl, dl1, dl2, dl3, dl4⟩ := h2
  have hlen := numeral_length hr dl2 dl3 dl4 hl hvl
  refine ⟨dh ++ (List.replicate (l - dl.length) 0 ++ dl), ?_, ?_, ?_, by simp [dh3], ?_⟩
  · rw [padLeft_digits]; simp
  · intro d hd
    rcases List.mem_append.1 hd with hd | hd
    · exact dh1 d hd
    · rcases List.mem_append.1 hd with hd | hd
      · simp at hd; omega
      · exact dl1 d hd
  · rw [Numeral.positional_append, Numeral.positional_replicate_zero, dh2, dl2]
    have : (List.replicate (l - dl.length) 0 ++ dl).length = l := by simp; omega
    rw [this]
  · right
    rcases dh4 with h | h
    · subst h; simp [positional] at dh2; omega
    · rw [List.head?_append]
      cases dh with
      | nil => exact absurd rfl dh3
      | cons d ds => simpa using h

/-- Whatever the two parts are, the text put together denotes at least the number put together. -/
theorem denotes_append {R : Rep} (hr : 2 ≤ R.radix) {sh sl : List Nat} {vh vl : Nat} (l : Nat)
    (h1 : Denotes R sh vh) (h2 : Denotes R sl vl) :
    ∃ v, Denotes R (sh ++ Numeral.padLeft l (R.getChar 0) sl) v ∧ vh * R.radix ^ l + vl ≤ v := by
  obtain ⟨dh, rfl, dh1, dh2⟩ := h1
  obtain ⟨dl, rfl, dl1, dl2⟩ := h2
  refine ⟨_, ⟨dh ++ (List.replicate (l - dl.length) 0 ++ dl), ?_, ?_, rfl⟩, ?_⟩
  · rw [padLeft_digits]; simp
  · intro d hd
    rcases List.mem_append.1 hd with hd | hd
    · exact dh1 d hd
    · rcases List.mem_append.1 hd with hd | hd
      · simp at hd; omega
      · exact dl1 d hd
  · rw [Numeral.positional_append, Numeral.positional_replicate_zero, dh2, dl2]
    have : l ≤ (List.replicate (l - dl.length) 0 ++ dl).length := by simp; omega
    have := Nat.pow_le_pow_right (n := R.radix) (by omega) this
    have := Nat.mul_le_mul_left vh this
    omega

theorem numeral_denotes {R : Rep} {s : List Nat} {n : Nat} (h : Numeral R s n) : Denotes R s n := by
  obtain ⟨ds, h1, h2, h3, _⟩ := h
  exact ⟨ds, h1, h2, h3⟩

theorem denotes_unique {R : Rep} (hR : Good R) {s : List Nat} {n m : Nat} (h1 : Denotes R s n) (h2 : Denotes R s m) :
    n = m := by
  obtain ⟨d, rfl, hd, rfl⟩ := h1
  obtain ⟨e, h3, he, rfl⟩ := h2
  have : d = e := by
    have hlen : d.length = e.length := by simpa using congrArg List.length h3
    apply List.ext_getElem hlen
    intro i h4 h5
    have h6 : R.getChar d[i] = R.getChar e[i] := by
      have h7 : (d.map R.getChar)[i]'(by simpa using h4) = (e.map R.getChar)[i]'(by simpa using h5) := by
        simp only [h3]
      simpa using h7
    rw [← hR.index _ (hd _ (List.getElem_mem h4)), ← hR.index _ (he _ (List.getElem_mem h5)), h6]
  rw [this]

/-! ### printing -/

/-- A deeper recursion gives the same text. -/
theorem printBig_mono {R : Rep} {w : Nat} {cut : Nat → Nat} (depth : Nat) {a s : List Nat}
    (h : printBig R w cut depth a = some s) (k : Nat) : printBig R w cut (depth + k) a = some s := by
  induction depth generalizing a s with
  | zero => cases h
  | succ d ih =>
    rw [show d + 1 + k = (d + k) + 1 by omega]
    unfold printBig at h ⊢
    split
    · next hs => rwa [if_pos hs] at h
    · next hs =>
      rw [if_neg hs] at h
      obtain ⟨bl, e1, h⟩ := Option.bind_eq_some_iff.1 h
      obtain ⟨hl, e2, h⟩ := Option.bind_eq_some_iff.1 h
      obtain ⟨sh, e3, h⟩ := Option.bind_eq_some_iff.1 h
      obtain ⟨sl, e4, h⟩ := Option.map_eq_some_iff.1 h
      rw [e1, Option.bind_some, e2, Option.bind_some, ih e3, Option.bind_some, ih e4, Option.map_some, h]

theorem printBig_unique {R : Rep} {w : Nat} {cut : Nat → Nat} {d e : Nat} {a s t : List Nat}
    (h1 : printBig R w cut d a = some s) (h2 : printBig R w cut e a = some t) : s = t := by
  have h3 := printBig_mono d h1 e
  have h4 := printBig_mono e h2 d
  rw [Nat.add_comm] at h4
  rw [h3] at h4
  injection h4

theorem print_native {R : Rep} {w : Nat} (hr : 2 ≤ R.radix) {a : List Nat} {x : Nat} (ha : Stores w a x) (hx : x < 2 ^ 64) :
    ∃ s, Numeral.toStringNative R (Ubig.convertTo w 64 a) = some s ∧ Numeral R s x := by
  rw [Ubig.to_native ha, Nat.mod_eq_of_lt hx]
  exact Numeral.toStringNative_spec hr x

/-- Up to 32 digits whatever is delivered is right. -/
theorem printBig_small {R : Rep} {w : Nat} {cut : Nat → Nat} (hw : 0 < w) (hd : w ∣ 64) (hr : 2 ≤ R.radix)
    (hr64 : R.radix < 2 ^ 64) (depth : Nat) {a s : List Nat} {x : Nat} (ha : Stores w a x) (h32 : a.length ≤ 32)
    (h : printBig R w cut depth a = some s) : Numeral R s x := by
  induction depth generalizing a s x with
  | zero => cases h
  | succ d ih =>
    unfold printBig at h
    split at h
    · next hs =>
      obtain ⟨t, e, ht⟩ := print_native hr ha ((safe_iff hw hd ha).1 hs)
      rw [e] at h
      injection h with h
      rwa [← h]
    · next hs =>
      have hx : 2 ^ 64 ≤ x := by
        by_contra hc
        exact hs ((safe_iff hw hd ha).2 (by omega))
      obtain ⟨⟨b, l⟩, e1, h⟩ := Option.bind_eq_some_iff.1 h
      obtain ⟨⟨q, r⟩, e2, h⟩ := Option.bind_eq_some_iff.1 h
      obtain ⟨sh, e3, h⟩ := Option.bind_eq_some_iff.1 h
      obtain ⟨sl, e4, h⟩ := Option.map_eq_some_iff.1 h
      obtain ⟨sb, hl, _⟩ := splitOf_spec hw hr64 e1
      have hle := splitOf_lt hw hr64 ha hx e1
      have hpos : 0 < R.radix ^ l := Nat.pow_pos (by omega)
      obtain ⟨sr, _, h3⟩ := Ubig.divmod_partial hw ha sb hpos e2
      have sq := (h3 h32).1
      have nh := ih sq (le_trans (stores_length_mono sq ha (Nat.div_le_self _ _)) h32) e3
      have nl := ih sr (le_trans (stores_length_mono sr ha (Nat.mod_le _ _)) h32) e4
      rw [← h]
      have hq : x / R.radix ^ l ≠ 0 := by
        have := Nat.div_pos hle hpos
        omega
      have := numeral_append hr hl nh nl (Nat.mod_lt _ hpos) hq
      rwa [Nat.div_add_mod'] at this

/-- `divmod` of an array that may have zeros at the top. -/
theorem divmod_digits {w : Nat} {cut : Nat → Nat} (hw : 0 < w) {a b q r : List Nat} {y : Nat} (ha : Ubig.Spec.Digits w a)
    (hb : Stores w b y) (hy : 0 < y) (h : Ubig.divmod w cut a b = some (q, r)) :
    Ubig.Spec.Digits w q ∧ val w a / y ≤ val w q ∧ Ubig.Spec.Digits w r ∧ val w r = val w a % y := by
  unfold Ubig.divmod at h
  have hne := Ubig.stores_pos_ne hb hy
  rw [if_neg (by have := List.length_pos_iff.2 hne; omega)] at h
  split at h
  · next hlt =>
    have := Ubig.length_lt_of_val_lt ha hb.2 hlt
    rw [hb.3] at this
    simp only [Option.some.injEq, Prod.mk.injEq] at h
    obtain ⟨rfl, rfl⟩ := h
    refine ⟨Ubig.digits_nil w, ?_, ha, (Nat.mod_eq_of_lt this).symm⟩
    rw [Nat.div_eq_of_lt this]; exact Nat.zero_le _
  · obtain ⟨h1, h2, h3, _⟩ := Ubig.fastDivmod_some hw ha hb hy h
    exact ⟨h1, h2, h3.1, h3.3⟩

/-- Whatever is delivered consists of digits and denotes at least the number. -/
theorem printBig_ge {R : Rep} {w : Nat} {cut : Nat → Nat} (hw : 0 < w) (h8 : 8 ∣ w) (hr : 2 ≤ R.radix)
    (hr64 : R.radix < 2 ^ 64) (depth : Nat) {a s : List Nat} (ha : Ubig.Spec.Digits w a)
    (h : printBig R w cut depth a = some s) : ∃ v, Denotes R s v ∧ val w a ≤ v := by
  induction depth generalizing a s with
  | zero => cases h
  | succ d ih =>
    unfold printBig at h
    split at h
    · next hs =>
      have hl : a.length * (w / 8) ≤ 8 := by
        by_contra hc
        unfold Convert.ubigSafe at hs
        rw [if_pos (show a.length * (w / 8) > Convert.maxBytes ⟨false, 3⟩ by
          rw [Convert.maxBytes_eq]; show _ > 8; omega)] at hs
        split at hs <;> exact Bool.noConfusion hs
      have hv := Ubig.val_lt ha
      rw [← pow_mul] at hv
      have h64 : w * a.length ≤ 64 := by
        obtain ⟨k, rfl⟩ := h8
        rw [Nat.mul_div_cancel_left _ (by decide)] at hl
        calc 8 * k * a.length = 8 * (a.length * k) := by ring
          _ ≤ 64 := by omega
      have hlt : val w a < 2 ^ 64 := lt_of_lt_of_le hv (Nat.pow_le_pow_right (by decide) h64)
      rw [Ubig.convertTo_val, Nat.mod_eq_of_lt hlt] at h
      obtain ⟨t, e, ht⟩ := Numeral.toStringNative_spec hr (val w a)
      rw [e] at h
      injection h with h
      rw [← h]
      exact ⟨_, numeral_denotes ht, le_refl _⟩
    · obtain ⟨⟨b, l⟩, e1, h⟩ := Option.bind_eq_some_iff.1 h
      obtain ⟨⟨q, r⟩, e2, h⟩ := Option.bind_eq_some_iff.1 h
      obtain ⟨sh, e3, h⟩ := Option.bind_eq_some_iff.1 h
      obtain ⟨sl, e4, h⟩ := Option.map_eq_some_iff.1 h
      obtain ⟨sb, hl, _⟩ := splitOf_spec hw hr64 e1
      have hpos : 0 < R.radix ^ l := Nat.pow_pos (by omega)
      obtain ⟨dq, hge, dr, hr'⟩ := divmod_digits hw ha sb hpos e2
      obtain ⟨vh, nh, gh⟩ := ih dq e3
      obtain ⟨vl, nl, gl⟩ := ih dr e4
      obtain ⟨v, nv, gv⟩ := denotes_append hr l nh nl
      refine ⟨v, by rw [← h]; exact nv, ?_⟩
      have h1 := Nat.mul_le_mul_right (R.radix ^ l) (le_trans hge gh)
      have h2 := Nat.div_add_mod' (val w a) (R.radix ^ l)
      omega

/-! ### what is delivered -/

theorem noModSize_exact' {w fuel : Nat} {a b : List Nat} (hf : 0 < fuel) (ha : Ubig.Spec.Digits w a)
    (hnz : NoLeadingZero b) (hne : b ≠ []) (hl : b.length ≤ a.length)
    (h2 : 2 * (b.length - Ubig.endZeros b - 1) ≤ a.length - Ubig.endZeros b) :
    ∃ n, Ubig.noModSize fuel a b = some n ∧ val w (a.drop n) / val w (b.drop n) = val w a / val w b := by
  obtain ⟨fuel, rfl⟩ : ∃ f, fuel = f + 1 := ⟨fuel - 1, by omega⟩
  have hdne : b.drop (Ubig.endZeros b) ≠ [] := Ubig.endZeros_drop_ne b
    ⟨_, List.getLast_mem hne, hnz _ (List.getLast?_eq_some_getLast hne)⟩
  have hdl := List.length_pos_iff.2 hdne
  rw [List.length_drop] at hdl
  refine ⟨Ubig.endZeros b, ?_, ?_⟩
  · simp only [Ubig.noModSize, List.length_drop]
    rw [if_neg (by rw [not_or]; exact ⟨hdne, by omega⟩), if_neg (by omega)]
  · rw [Ubig.val_drop w _ ha, Ubig.zeros_div]

theorem divmod_isSome {w : Nat} {cut : Nat → Nat} {a b : List Nat} {y : Nat} (ha : Ubig.Spec.Digits w a)
    (hb : Stores w b y) (hy : 0 < y) (h32 : a.length ≤ 32) (hl : b.length ≤ a.length)
    (h2 : 2 * (b.length - Ubig.endZeros b - 1) ≤ a.length - Ubig.endZeros b) :
    ∃ q r, Ubig.divmod w cut a b = some (q, r) := by
  have hne := Ubig.stores_pos_ne hb hy
  unfold Ubig.divmod
  rw [if_neg (by have := List.length_pos_iff.2 hne; omega), if_neg (by omega)]
  unfold Ubig.fastDivmod
  rw [if_pos (by simpa [Ubig.divThreshold] using h32)]
  obtain ⟨n, hn, hx⟩ := noModSize_exact' (w := w) (fuel := b.length + 1) (by omega) ha hb.2 hne hl h2
  obtain ⟨hnb, _⟩ := Ubig.noModSize_some hn
  unfold Ubig.divmodBase
  have hn' : Ubig.noMod a b = some n := hn
  simp only [hn', Option.bind_eq_bind, Option.bind_some]
  split
  · obtain ⟨q, r, e, _⟩ := Ubig.divNoOpt_spec ha hb.1 hb.2 hne hl
    exact ⟨q, Ubig.shrink r, by rw [e]; rfl⟩
  · obtain ⟨q, r, e, s, _⟩ := Ubig.divNoOpt_spec (Ubig.digits_drop n ha) (Ubig.digits_drop n hb.1)
      (Ubig.nlz_drop n hb.2) (Ubig.drop_ne_nil hnb) (by simp only [List.length_drop]; omega)
    obtain ⟨p, hp⟩ := Ubig.fastMulAux_small (q.length + b.length) s.1 hb.1 (Or.inr (by omega))
    have sp := Ubig.fastMulAux_digits _ s.1 hb.1 hp
    have hp' : Ubig.mul w q b = some p := hp
    rw [s.3, hx] at sp
    have hle : val w a / val w b * val w b ≤ val w a := Nat.div_mul_le_self _ _
    obtain ⟨r', hr', _⟩ := Ubig.subBase_stores ha rfl sp hle
    exact ⟨q, r', by simp only [e, hp', hr', Option.bind_some]⟩

/-- The size condition under which the division by the split point is delivered. -/
def SplitOk (w radix size : Nat) : Prop := ∀ b l, splitOf w radix size = some (b, l) →
  2 * (b.length - Ubig.endZeros b - 1) ≤ size - Ubig.endZeros b

/-- If all sizes up to `n` are fine, all numbers of up to `n` digits are printed. -/
theorem printBig_isSome {R : Rep} {w n : Nat} {cut : Nat → Nat} (hw : 0 < w) (hd : w ∣ 64) (hr : 2 ≤ R.radix)
    (hr64 : R.radix < 2 ^ 64) (hn : n ≤ 32) (hok : ∀ size, 64 < w * size → size ≤ n → SplitOk w R.radix size)
    (x : Nat) : ∀ {a : List Nat}, Stores w a x → a.length ≤ n → ∃ depth s, printBig R w cut depth a = some s := by
  induction x using Nat.strong_induction_on with
  | _ x ih =>
    intro a ha hl
    by_cases hx : x < 2 ^ 64
    · obtain ⟨t, e, _⟩ := print_native hr ha hx
      refine ⟨1, t, ?_⟩
      unfold printBig
      rw [if_pos ((safe_iff hw hd ha).2 hx), e]
    · have hsize : 64 < w * a.length := by
        have h1 := Ubig.val_lt ha.1
        rw [ha.3, ← pow_mul] at h1
        exact (Nat.pow_lt_pow_iff_right (by decide)).1 (lt_of_le_of_lt (by omega) h1)
      obtain ⟨b, l, e1⟩ := splitOf_isSome (w := w) (size := a.length) hw hr hr64 (by omega)
      obtain ⟨sb, hl1, _⟩ := splitOf_spec hw hr64 e1
      have hle := splitOf_lt hw hr64 ha (by omega) e1
      have hpos : 0 < R.radix ^ l := Nat.pow_pos (by omega)
      obtain ⟨q, r, e2⟩ := divmod_isSome (cut := cut) ha.1 sb hpos (by omega) (stores_length_mono sb ha hle)
        (hok _ hsize hl b l e1)
      obtain ⟨sr, _, h3⟩ := Ubig.divmod_partial hw ha sb hpos e2
      have sq := (h3 (by omega)).1
      have h2l : 2 ≤ R.radix ^ l := by
        calc 2 ≤ R.radix := hr
          _ = R.radix ^ 1 := (pow_one _).symm
          _ ≤ R.radix ^ l := Nat.pow_le_pow_right (by omega) hl1
      obtain ⟨d1, s1, p1⟩ := ih _ (Nat.div_lt_self (by omega) h2l) sq
        (le_trans (stores_length_mono sq ha (Nat.div_le_self _ _)) hl)
      obtain ⟨d2, s2, p2⟩ := ih _ (lt_of_lt_of_le (Nat.mod_lt _ hpos) hle) sr
        (le_trans (stores_length_mono sr ha (Nat.mod_le _ _)) hl)
      have p1' := printBig_mono d1 p1 d2
      have p2' := printBig_mono d2 p2 d1
      rw [Nat.add_comm] at p2'
      refine ⟨d1 + d2 + 1, s1 ++ Numeral.padLeft l (R.getChar 0) s2, ?_⟩
      unfold printBig
      rw [if_neg (by rw [safe_iff hw hd ha]; exact hx), e1, Option.bind_some, e2, Option.bind_some, p1', Option.bind_some,
        p2', Option.map_some]

/-- Every radix of at most two digits: sizes up to twelve are fine. -/
theorem splitOk_twelve {w radix : Nat} (hw : 0 < w) (h32 : w ≤ 32) (hr64 : radix < 2 ^ 64)
    (hrw : radix < 2 ^ (2 * w)) (size : Nat) (h64 : 64 < w * size) (h12 : size ≤ 12) : SplitOk w radix size := by
  intro b l h
  obtain ⟨sb, _, h3⟩ := splitOf_spec hw hr64 h
  have h3s : 3 ≤ size := by
    by_contra hc
    have : w * size ≤ 32 * 2 := Nat.mul_le_mul h32 (by omega)
    omega
  have hz := Ubig.endZeros_le b
  suffices h : 2 * (b.length - 1) ≤ size by omega
  rcases h3 with ⟨s1, _⟩ | ⟨k, hk, hb⟩
  · have : b.length ≤ 2 := by
      apply Ubig.length_le_of_val_lt (w := w) s1.2
      rw [s1.3, ← pow_mul, Nat.mul_comm w 2]
      exact hrw
    omega
  · omega

/-! ### reading -/

theorem fromLoop_lt {R : Rep} {t : Nat} (s : List Nat) : ∀ (v : Nat) (st : State), v < 2 ^ t →
    (Numeral.fromLoop R t v s st).1 < 2 ^ t := by
  induction s with
  | nil => intro v st h; exact h
  | cons c cs ih =>
    intro v st h
    unfold Numeral.fromLoop
    dsimp only
    split
    · exact ih _ _ (Nat.mod_lt _ (Nat.two_pow_pos t))
    · exact Nat.two_pow_pos t

/-- The split point of a text is the one of the exact computation. -/
theorem splitText_spec {w size r : Nat} (fuel : Nat) {base b : List Nat} {len l : Nat} (hb : Stores w base (r ^ len))
    (hl : 1 ≤ len) (h : splitText w size fuel base len = some (b, l)) :
    Stores w b (r ^ l) ∧ Numeral.splitLenLoop size (r ^ len) len = (r ^ l, l) := by
  induction fuel generalizing base len with
  | zero => cases h
  | succ fuel ih =>
    unfold splitText at h
    rw [Numeral.splitLenLoop]
    split at h
    · next hs =>
      obtain ⟨m, hm, h⟩ := Option.bind_eq_some_iff.1 h
      have sm := Ubig.mul_partial hb hb hm
      have e : r ^ len * r ^ len = r ^ (len * 2) := by rw [← pow_add]; congr 1; omega
      rw [e] at sm
      rw [dif_pos ⟨by omega, hs⟩, e]
      exact ih sm (by omega) h
    · next hs =>
      injection h with h
      injection h with h1 h2
      subst h1 h2
      rw [dif_neg (by omega)]
      exact ⟨hb, rfl⟩

theorem splitText_isSome {w size r K : Nat} (hr : 1 ≤ r) (hK : size ≤ 3 * 2 ^ K) (h63 : r ^ 2 ^ K < 2 ^ (63 * w))
    (fuel : Nat) {base : List Nat} {j : Nat} (hj : j ≤ K) (hb : Stores w base (r ^ 2 ^ j)) (hf : size < fuel + 2 ^ j)
    (hf0 : 0 < fuel) :
    ∃ b i, splitText w size fuel base (2 ^ j) = some (b, 2 ^ i) ∧ i ≤ K := by
  induction fuel generalizing base j with
  | zero => omega
  | succ fuel ih =>
    unfold splitText
    split
    · next hs =>
      have hjK : j < K := (Nat.pow_lt_pow_iff_right (by decide : 1 < 2)).1 (by omega)
      have hbl : base.length ≤ 63 := by
        apply Ubig.length_le_of_val_lt (w := w) hb.2
        rw [hb.3, ← pow_mul, Nat.mul_comm w 63]
        exact lt_of_le_of_lt (Nat.pow_le_pow_right hr (Nat.pow_le_pow_right (by decide) hj)) h63
      obtain ⟨m, hm, sm⟩ := Ubig.mul_small_correct hb hb (by omega)
      rw [hm]
      have e : r ^ 2 ^ j * r ^ 2 ^ j = r ^ 2 ^ (j + 1) := by rw [← pow_add, pow_succ]; congr 1; omega
      rw [e] at sm
      have hp := Nat.two_pow_pos j
      have := ih hjK sm (by rw [pow_succ]; omega) (by omega)
      rw [pow_succ] at this
      exact this
    · exact ⟨base, j, rfl, hj⟩

/-- A text that is read at all is read as the exact computation reads it. -/
theorem readBig_some {R : Rep} {w thr : Nat} (hw : 0 < w) (hr64 : R.radix < 2 ^ 64) (h1 : 1 ≤ thr) (depth : Nat)
    {s d : List Nat} {st st' : State} (h : readBig R w thr depth s st = some (d, st')) :
    Stores w d (val w d) ∧ Numeral.fromBig R thr s st = some (val w d, st') := by
  induction depth generalizing s d st st' with
  | zero => cases h
  | succ n ih =>
    unfold readBig at h
    rw [Numeral.fromBig]
    split at h
    · next hl =>
      rw [if_pos hl]
      obtain ⟨b0, hb0, sb0⟩ := Ubig.from_native_stores hw 64 R.radix hr64
      rw [hb0, Option.bind_some] at h
      obtain ⟨⟨b, l⟩, e1, h⟩ := Option.bind_eq_some_iff.1 h
      obtain ⟨sb, e2⟩ := splitText_spec _ (by rw [pow_one]; exact sb0) (le_refl 1) e1
      obtain ⟨l', e3, e4, e5⟩ := Numeral.splitLenLoop_spec s.length R.radix 1 (le_refl 1)
      rw [e2] at e3
      rw [pow_one] at e2
      have hll : l = l' := by injection e3
      subst hll
      have hls := e5 (by omega)
      simp only [e2, dif_pos (And.intro (show 0 < l by omega) hls)]
      dsimp only at h
      rw [if_neg (by omega)] at h
      obtain ⟨⟨dh, st1⟩, p1, h⟩ := Option.bind_eq_some_iff.1 h
      obtain ⟨sh, q1⟩ := ih p1
      rw [q1]
      dsimp only at h ⊢
      split at h
      · next he =>
        rw [if_pos he]
        injection h with h
        injection h with h3 h4
        subst h3 h4
        exact ⟨Ubig.stores_nil w, rfl⟩
      · next he =>
        rw [if_neg he]
        obtain ⟨⟨dl, st2⟩, p2, h⟩ := Option.bind_eq_some_iff.1 h
        obtain ⟨sl, q2⟩ := ih p2
        rw [q2]
        dsimp only at h ⊢
        split at h
        · next he2 =>
          rw [if_pos he2]
          injection h with h
          injection h with h3 h4
          subst h3 h4
          exact ⟨Ubig.stores_nil w, rfl⟩
        · next he2 =>
          rw [if_neg he2]
          obtain ⟨p, m1, h⟩ := Option.bind_eq_some_iff.1 h
          obtain ⟨r, m2, h⟩ := Option.map_eq_some_iff.1 h
          have sp := Ubig.mul_partial sh sb m1
          obtain ⟨r', m3, sr⟩ := Ubig.add_correct sp sl
          rw [m3] at m2
          injection m2 with m2
          subst m2
          injection h with h3 h4
          subst h3 h4
          exact ⟨⟨sr.1, sr.2, rfl⟩, by rw [sr.3]⟩
    · next hl =>
      rw [if_neg hl]
      obtain ⟨d', m1, h⟩ := Option.map_eq_some_iff.1 h
      obtain ⟨d2, m2, sd⟩ := Ubig.from_native_stores hw 64 (Numeral.fromNative R 64 s st).1
        (fromLoop_lt s 0 st (by decide))
      rw [m2] at m1
      injection m1 with m1
      subst m1
      injection h with h3 h4
      subst h3 h4
      exact ⟨⟨sd.1, sd.2, rfl⟩, by rw [sd.3]⟩

/-- Texts whose split points have fewer than 64 digits are always read. -/
theorem readBig_isSome {R : Rep} {w thr K : Nat} (hw : 0 < w) (hr : 2 ≤ R.radix) (hr64 : R.radix < 2 ^ 64) (h1 : 1 ≤ thr)
    (h63 : R.radix ^ 2 ^ K < 2 ^ (63 * w)) (depth : Nat) {s : List Nat} (st : State) (hK : s.length ≤ 3 * 2 ^ K)
    (hdp : s.length < depth) : ∃ r, readBig R w thr depth s st = some r := by
  induction depth generalizing s st with
  | zero => omega
  | succ n ih =>
    unfold readBig
    split
    · next hl =>
      obtain ⟨b0, hb0, sb0⟩ := Ubig.from_native_stores hw 64 R.radix hr64
      rw [hb0, Option.bind_some]
      obtain ⟨b, i, e1, hi⟩ := splitText_isSome (w := w) (by omega) hK h63 s.length (j := 0) (Nat.zero_le _)
        (by simpa using sb0) (by omega) (by omega)
      rw [pow_zero] at e1
      rw [e1, Option.bind_some]
      obtain ⟨sb, e2⟩ := splitText_spec _ (by rw [pow_one]; exact sb0) (le_refl 1) e1
      obtain ⟨l', e3, e4, e5⟩ := Numeral.splitLenLoop_spec s.length R.radix 1 (le_refl 1)
      rw [e2] at e3
      have hll : 2 ^ i = l' := by injection e3
      have hls := e5 (by omega)
      dsimp only
      rw [if_neg (by omega)]
      obtain ⟨⟨dh, st1⟩, p1⟩ := ih (s := s.take (s.length - 2 ^ i)) st (by simp; omega) (by simp; omega)
      rw [p1, Option.bind_some]
      dsimp only
      split
      · exact ⟨_, rfl⟩
      · obtain ⟨⟨dl, st2⟩, p2⟩ := ih (s := s.drop (s.length - 2 ^ i)) st1 (by simp; omega) (by simp; omega)
        rw [p2, Option.bind_some]
        dsimp only
        split
        · exact ⟨_, rfl⟩
        · have sh := (readBig_some hw hr64 h1 _ p1).1
          have sl := (readBig_some hw hr64 h1 _ p2).1
          have hbl : b.length ≤ 63 := by
            apply Ubig.length_le_of_val_lt (w := w) sb.2
            rw [sb.3, ← pow_mul, Nat.mul_comm w 63]
            exact lt_of_le_of_lt (Nat.pow_le_pow_right (by omega) (Nat.pow_le_pow_right (by decide) hi)) h63
          obtain ⟨p, m1, sp⟩ := Ubig.mul_small_correct sh sb (by omega)
          obtain ⟨r, m2, _⟩ := Ubig.add_correct sp sl
          rw [m1, Option.bind_some, m2]
          exact ⟨_, rfl⟩
    · obtain ⟨d2, m2, sd⟩ := Ubig.from_native_stores hw 64 (Numeral.fromNative R 64 s st).1
        (fromLoop_lt s 0 st (by decide))
      dsimp only
      rw [m2]
      exact ⟨_, rfl⟩

/-- A deeper recursion reads the same. -/
theorem readBig_fuel {R : Rep} {w thr : Nat} (hw : 0 < w) (hr64 : R.radix < 2 ^ 64) (h1 : 1 ≤ thr)
    (depth : Nat) {s : List Nat} (st : State) (h : s.length < depth) (k : Nat) :
    readBig R w thr (depth + k) s st = readBig R w thr depth s st := by
  induction depth generalizing s st with
  | zero => omega
  | succ n ih =>
    rw [show n + 1 + k = (n + k) + 1 by omega]
    unfold readBig
    split
    · next hl =>
      obtain ⟨b0, hb0, sb0⟩ := Ubig.from_native_stores hw 64 R.radix hr64
      rw [hb0, Option.bind_some, Option.bind_some]
      cases e1 : splitText w s.length s.length b0 1 with
      | none => rfl
      | some bl =>
        obtain ⟨b, l⟩ := bl
        obtain ⟨sb, e2⟩ := splitText_spec _ (by rw [pow_one]; exact sb0) (le_refl 1) e1
        obtain ⟨l', e3, e4, e5⟩ := Numeral.splitLenLoop_spec s.length R.radix 1 (le_refl 1)
        rw [e2] at e3
        have hll : l = l' := by injection e3
        have hls := e5 (by omega)
        rw [Option.bind_some, Option.bind_some]
        dsimp only
        rw [if_neg (by omega), if_neg (by omega), ih (s := s.take (s.length - l)) st (by simp; omega)]
        congr 1
        funext h
        split
        · rfl
        · rw [ih (s := s.drop (s.length - l)) h.2 (by simp; omega)]
    · rfl

end ELC.Print
