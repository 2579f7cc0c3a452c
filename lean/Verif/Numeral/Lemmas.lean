import Verif.Numeral.Spec
import Mathlib.Data.Nat.Digits.Defs
import Mathlib.Data.Nat.Digits.Lemmas
import Mathlib.Tactic.Ring
import Mathlib.Tactic.Linarith
namespace ELC.Numeral
open Spec

/-! ### positional values -/

theorem positional_foldl (r : Nat) (ds : List Nat) (a : Nat) :
    ds.foldl (fun v d => v * r + d) a = a * r ^ ds.length + positional r ds := by
  induction ds generalizing a with
  | nil => simp [positional]
  | cons d ds ih =>
    have h0 : positional r (d :: ds) = (0 * r + d) * r ^ ds.length + positional r ds := by
      rw [← ih]; rfl
    rw [List.foldl_cons, ih, h0, List.length_cons, pow_succ]
    ring

@[simp] theorem positional_nil (r : Nat) : positional r [] = 0 := rfl

theorem positional_cons (r d : Nat) (ds : List Nat) :
    positional r (d :: ds) = d * r ^ ds.length + positional r ds := by
  rw [positional, List.foldl_cons, positional_foldl]; simp

theorem positional_append (r : Nat) (a b : List Nat) :
    positional r (a ++ b) = positional r a * r ^ b.length + positional r b := by
  rw [positional, List.foldl_append, positional_foldl]; rfl

theorem positional_concat (r : Nat) (a : List Nat) (d : Nat) :
    positional r (a ++ [d]) = positional r a * r + d := by
  rw [positional_append]; simp [positional_cons]

theorem positional_replicate_zero (r n : Nat) (ds : List Nat) :
    positional r (List.replicate n 0 ++ ds) = positional r ds := by
  induction n with
  | zero => simp
  | succ n ih => rw [List.replicate_succ, List.cons_append, positional_cons, ih]; simp

theorem positional_append_zeros (r n : Nat) (ds : List Nat) :
    positional r (ds ++ List.replicate n 0) = positional r ds * r ^ n := by
  rw [positional_append]
  have := positional_replicate_zero r n []
  simp only [List.append_nil, positional_nil] at this
  rw [this]; simp

theorem positional_lt {r : Nat} {ds : List Nat} (h : ∀ d ∈ ds, d < r) :
    positional r ds < r ^ ds.length := by
  induction ds with
  | nil => simp
  | cons d ds ih =>
    have hd : d < r := h d (by simp)
    have := ih (fun x hx => h x (by simp [hx]))
    rw [positional_cons, List.length_cons, pow_succ]
    calc d * r ^ ds.length + positional r ds < d * r ^ ds.length + r ^ ds.length := by omega
      _ = (d + 1) * r ^ ds.length := by ring
      _ ≤ r * r ^ ds.length := Nat.mul_le_mul_right _ hd
      _ = r ^ ds.length * r := by ring

theorem positional_ge {r : Nat} {ds : List Nat} (hne : ds ≠ []) (h0 : ds.head? ≠ some 0) :
    r ^ (ds.length - 1) ≤ positional r ds := by
  cases ds with
  | nil => exact absurd rfl hne
  | cons d ds =>
    have : d ≠ 0 := by intro h; apply h0; simp [h]
    rw [positional_cons]
    have : 1 * r ^ ds.length ≤ d * r ^ ds.length := Nat.mul_le_mul_right _ (by omega)
    simp only [List.length_cons, Nat.add_sub_cancel]
    omega

theorem positional_ofDigits (r : Nat) (ds : List Nat) :
    positional r ds = Nat.ofDigits r ds.reverse := by
  induction ds with
  | nil => simp
  | cons d ds ih =>
    rw [positional_cons, List.reverse_cons, Nat.ofDigits_append, ← ih]
    simp; ring

theorem digits_unique {r : Nat} (hr : 2 ≤ r) {a b : List Nat} (ha : ∀ d ∈ a, d < r)
    (hb : ∀ d ∈ b, d < r) (ha0 : a ≠ [] ∧ (a = [0] ∨ a.head? ≠ some 0))
    (hb0 : b ≠ [] ∧ (b = [0] ∨ b.head? ≠ some 0)) (h : positional r a = positional r b) : a = b := by
  have zero : ∀ {a : List Nat}, a ≠ [] ∧ (a = [0] ∨ a.head? ≠ some 0) → positional r a = 0 → a = [0] := by
    intro a ⟨hne, h⟩ hz
    rcases h with h | h
    · exact h
    · have := positional_ge (r := r) hne h
      have : 0 < r ^ (a.length - 1) := Nat.pow_pos (by omega)
      omega
  by_cases hz : positional r a = 0
  · rw [zero ha0 hz, zero hb0 (by omega)]
  · have key : ∀ {a : List Nat}, (∀ d ∈ a, d < r) → a ≠ [] ∧ (a = [0] ∨ a.head? ≠ some 0) →
        positional r a ≠ 0 → Nat.digits r (positional r a) = a.reverse := by
      intro a ha ⟨hne, h⟩ hz
      rw [positional_ofDigits]
      apply Nat.digits_ofDigits r (by omega)
      · intro l hl; exact ha l (by simpa using hl)
      · intro hne'
        rw [List.getLast_reverse]
        rcases h with h | h
        · subst h; simp [positional] at hz
        · intro h0; apply h
          rw [List.head?_eq_some_head hne, h0]
    have h1 := key ha ha0 hz
    have h2 := key hb hb0 (by omega)
    rw [h] at h1
    rw [h1] at h2
    simpa using congrArg List.reverse h2

theorem numeral_unique {R : Rep} (hr : 2 ≤ R.radix) {s s' : List Nat} {n : Nat} (h : Numeral R s n)
    (h' : Numeral R s' n) : s = s' := by
  obtain ⟨a, rfl, ha, hv, h0⟩ := h
  obtain ⟨b, rfl, hb, hv', h0'⟩ := h'
  rw [digits_unique hr ha hb h0 h0' (by omega)]

/-! ### integers to text -/

theorem toStringLoop_spec {R : Rep} (hr : 2 ≤ R.radix) (n : Nat) : ∀ aret, ∃ ds,
    toStringLoop R n aret = some (ds.map R.getChar ++ aret) ∧ (∀ d ∈ ds, d < R.radix) ∧
      positional R.radix ds = n ∧ ds ≠ [] ∧ (ds = [0] ∨ ds.head? ≠ some 0) := by
  induction n using Nat.strong_induction_on with
  | _ n ih =>
    intro aret
    rw [toStringLoop, if_neg (by omega)]
    have hmod : n % R.radix < R.radix := Nat.mod_lt _ (by omega)
    by_cases hq : n / R.radix = 0
    · refine ⟨[n % R.radix], by simp [hq], by simpa using hmod, ?_, by simp, ?_⟩
      · rw [positional_cons]
        have := Nat.div_add_mod n R.radix
        rw [hq] at this; simp at this ⊢; omega
      · by_cases h0 : n % R.radix = 0
        · left; rw [h0]
        · right; simpa using h0
    · have hlt : n / R.radix < n := Nat.div_lt_self (by
        rcases Nat.eq_zero_or_pos n with h | h
        · subst h; simp at hq
        · exact h) (by omega)
      obtain ⟨ds, h1, h2, h3, h4, h5⟩ := ih _ hlt (R.getChar (n % R.radix) :: aret)
      refine ⟨ds ++ [n % R.radix], ?_, ?_, ?_, by simp, ?_⟩
      · simp only [hq, if_false, hlt, dite_true, h1]; simp
      · intro d hd
        rcases List.mem_append.1 hd with hd | hd
        · exact h2 d hd
        · simp at hd; omega
      · rw [positional_concat, h3]; exact Nat.div_add_mod' n R.radix
      · right
        rcases h5 with h5 | h5
        · subst h5; simp [positional] at h3; omega
        · rw [List.head?_append]
          cases ds with
          | nil => exact absurd rfl h4
          | cons d ds => simpa using h5

theorem toStringNative_spec {R : Rep} (hr : 2 ≤ R.radix) (n : Nat) : ∃ s, toStringNative R n = some s ∧
    Numeral R s n := by
  obtain ⟨ds, h1, h2, h3, h4, h5⟩ := toStringLoop_spec hr n []
  exact ⟨ds.map R.getChar, by rw [toStringNative, h1]; simp, ds, rfl, h2, h3, h4, h5⟩

theorem bigSize_upper {w : Nat} (hw : 0 < w) (n : Nat) : n < 2 ^ (w * bigSize w n) := by
  unfold bigSize
  split
  · next h => subst h; simp
  · have h1 : n < 2 ^ (n.log2 + 1) := Nat.lt_log2_self
    refine lt_of_lt_of_le h1 (Nat.pow_le_pow_right (by omega) ?_)
    have := Nat.div_add_mod n.log2 w
    have := Nat.mod_lt n.log2 hw
    rw [Nat.mul_add]; omega

theorem bigSize_lower {w : Nat} {n : Nat} (hn : n ≠ 0) : 2 ^ (w * (bigSize w n - 1)) ≤ n := by
  unfold bigSize
  rw [if_neg hn]
  refine le_trans (Nat.pow_le_pow_right (by omega) ?_) (Nat.log2_self_le hn)
  simp only [Nat.add_sub_cancel]
  exact Nat.mul_div_le _ _

theorem splitLoop_spec {w num : Nat} (hw : 0 < w) (r : Nat) (base : Nat) : ∀ len, base = r ^ len → 2 ≤ base →
    base ≤ num → 1 ≤ len → ∃ l, splitLoop w num base len = some (r ^ l, l) ∧ 2 ≤ r ^ l ∧ r ^ l ≤ num ∧
      1 ≤ l := by
  induction h : num - base using Nat.strong_induction_on generalizing base with
  | _ m ih =>
    intro len hb h2 hle hlen
    rw [splitLoop]
    split
    · next hs =>
      have hlow := bigSize_lower (w := w) (n := num) (by omega)
      have hup := bigSize_upper hw base
      have hsq : base * base < num := by
        refine lt_of_lt_of_le (Nat.mul_lt_mul'' hup hup) (le_trans ?_ hlow)
        rw [← pow_add]
        apply Nat.pow_le_pow_right (by omega)
        rw [← Nat.mul_add]
        exact Nat.mul_le_mul_left _ (by omega)
      have hgt : base < base * base := by nlinarith
      rw [dif_pos ⟨hgt, by omega⟩]
      obtain ⟨l, h⟩ := ih (num - base * base) (by omega) (base * base) rfl (len * 2) (by
        rw [hb, Nat.mul_comm len 2, pow_mul']; ring) (by omega) (by omega) (by omega)
      exact ⟨l, h⟩
    · exact ⟨len, by rw [hb], by omega, by omega, hlen⟩

theorem toStringBig_spec {R : Rep} {w : Nat} (hw : 0 < w) (hr : 2 ≤ R.radix) (hr64 : R.radix < 2 ^ 64)
    (n : Nat) : ∃ s, toStringBig R w n = some s ∧ Numeral R s n := by
  induction n using Nat.strong_induction_on with
  | _ n ih =>
    rw [toStringBig]
    split
    · exact toStringNative_spec hr n
    · next hbig =>
      obtain ⟨l, h1, h2, h3, h4⟩ := splitLoop_spec (num := n) hw R.radix R.radix 1 (by simp) hr (by omega) (by omega)
      rw [h1]
      have hhi : n / R.radix ^ l < n := Nat.div_lt_self (by omega) (by omega)
      have hlo : n % R.radix ^ l < n := lt_of_lt_of_le (Nat.mod_lt _ (by omega)) h3
      simp only [dif_pos (And.intro hhi hlo)]
      obtain ⟨sh, e1, dh, rfl, dh1, dh2, dh3, dh4⟩ := ih _ hhi
      obtain ⟨sl, e2, dl, rfl, dl1, dl2, dl3, dl4⟩ := ih _ hlo
      rw [e1, e2]
      have hlen : dl.length ≤ l := by
        rcases dl4 with h | h
        · subst h; simpa using h4
        · have := positional_ge (r := R.radix) dl3 h
          rw [dl2] at this
          have hlt : n % R.radix ^ l < R.radix ^ l := Nat.mod_lt _ (by omega)
          have : dl.length - 1 < l := (Nat.pow_lt_pow_iff_right (a := R.radix) (by omega)).1 (by omega)
          omega
      have hpad : padLeft l (R.getChar 0) (dl.map R.getChar) =
          (List.replicate (l - dl.length) 0 ++ dl).map R.getChar := by
        unfold padLeft
        split
        · next h =>
          simp only [List.length_map] at h
          rw [show l - dl.length = 0 by omega]; simp
        · simp
      have hq : n / R.radix ^ l ≠ 0 := by
        have := Nat.div_pos h3 (by omega); omega
      refine ⟨_, rfl, dh ++ (List.replicate (l - dl.length) 0 ++ dl), ?_, ?_, ?_, by simp [dh3], ?_⟩
      · dsimp only; rw [hpad]; simp
      · intro d hd
        rcases List.mem_append.1 hd with hd | hd
        · exact dh1 d hd
        · rcases List.mem_append.1 hd with hd | hd
          · simp at hd; omega
          · exact dl1 d hd
      · rw [positional_append, positional_replicate_zero, dh2, dl2]
        have : (List.replicate (l - dl.length) 0 ++ dl).length = l := by simp; omega
        rw [this]; exact Nat.div_add_mod' _ _
      · right
        rcases dh4 with h | h
        · subst h; simp [positional] at dh2; exact absurd (by omega) hq
        · cases dh with
          | nil => exact absurd rfl dh3
          | cons d ds => simpa using h

/-! ### text to integers -/

theorem fromLoop_digits {R : Rep} (hR : Good R) (t : Nat) (ds : List Nat) (hd : ∀ d ∈ ds, d < R.radix) (st : State) :
    ∀ a, a < 2 ^ t → fromLoop R t a (ds.map R.getChar) st = ((a * R.radix ^ ds.length + positional R.radix ds) % 2 ^ t, st) := by
  induction ds with
  | nil => intro a ha; simp [fromLoop, Nat.mod_eq_of_lt ha]
  | cons d ds ih =>
    intro a ha
    have hlt := hd d (by simp)
    rw [List.map_cons, fromLoop]
    simp only [hR.valid d hlt, if_true, hR.index d hlt]
    rw [ih (fun x hx => hd x (by simp [hx])) _ (Nat.mod_lt _ (Nat.pow_pos (by omega)))]
    congr 1
    rw [positional_cons, List.length_cons, pow_succ]
    have : a * (R.radix ^ ds.length * R.radix) + (d * R.radix ^ ds.length + positional R.radix ds)
        = (a * R.radix + d) * R.radix ^ ds.length + positional R.radix ds := by ring
    rw [this]
    rw [Nat.add_mod, Nat.mul_mod, Nat.mod_mod, Nat.add_mod (a * R.radix % 2 ^ t), Nat.mod_mod,
      ← Nat.add_mod (a * R.radix), ← Nat.mul_mod, ← Nat.add_mod]

theorem fromLoop_invalid {R : Rep} (t : Nat) (s : List Nat) (st : State) (h : ∃ c ∈ s, R.isValid c = false) :
    ∀ a, fromLoop R t a s st = (0, { st with error := true, invalidChar := true }) := by
  induction s with
  | nil => simp at h
  | cons c cs ih =>
    intro a
    rw [fromLoop]
    by_cases hv : R.isValid c = true
    · simp only [hv, if_true]
      apply ih
      obtain ⟨x, hx, hx'⟩ := h
      rcases List.mem_cons.1 hx with rfl | hx
      · simp [hv] at hx'
      · exact ⟨x, hx, hx'⟩
    · simp only [hv]; simp

/-- A text is a text of digits or holds an invalid character. -/
theorem digits_or_invalid {R : Rep} (hR : Good R) (s : List Nat) :
    (∃ ds : List Nat, s = ds.map R.getChar ∧ ∀ d ∈ ds, d < R.radix) ∨ ∃ c ∈ s, R.isValid c = false := by
  induction s with
  | nil => left; exact ⟨[], rfl, by simp⟩
  | cons c cs ih =>
    rcases ih with ⟨ds, h1, h2⟩ | ⟨x, hx, h⟩
    · by_cases hv : R.isValid c = true
      · obtain ⟨i, hi, rfl⟩ := hR.only c hv
        left; refine ⟨i :: ds, by simp [h1], ?_⟩
        intro d hd
        rcases List.mem_cons.1 hd with rfl | hd
        · exact hi
        · exact h2 d hd
      · right; exact ⟨c, by simp, by simpa using hv⟩
    · right; exact ⟨x, by simp [hx], h⟩

theorem invalid_iff_notDigit {R : Rep} (hR : Good R) (c : Nat) : R.isValid c = false ↔ NotDigit R c := by
  constructor
  · intro h i hi hc
    have := hR.valid i hi
    rw [hc, h] at this; simp at this
  · intro h
    cases hv : R.isValid c with
    | false => rfl
    | true =>
      obtain ⟨i, hi, hc⟩ := hR.only c hv
      exact absurd hc (h i hi)

theorem fromNative_digits {R : Rep} (hR : Good R) (t : Nat) {ds : List Nat} (hd : ∀ d ∈ ds, d < R.radix) (st : State) :
    fromNative R t (ds.map R.getChar) st = (positional R.radix ds % 2 ^ t, st) := by
  rw [fromNative, fromLoop_digits hR t ds hd st 0 (Nat.pow_pos (by omega))]; simp

theorem splitLenLoop_spec (size r : Nat) (len : Nat) : 1 ≤ len → ∃ l, splitLenLoop size (r ^ len) len = (r ^ l, l) ∧
    1 ≤ l ∧ (len < size → l < size) := by
  induction h : size - len using Nat.strong_induction_on generalizing len with
  | _ m ih =>
    intro hlen
    rw [splitLenLoop]
    split
    · next hc =>
      obtain ⟨l, h1, h2, h3⟩ := ih (size - len * 2) (by omega) (len * 2) rfl (by omega)
      refine ⟨l, ?_, h2, fun _ => h3 (by omega)⟩
      rw [← h1, ← pow_add, Nat.mul_two]
    · exact ⟨len, rfl, hlen, fun h => h⟩

theorem fromBig_spec {R : Rep} {thr : Nat} (hR : Good R) (h1 : 1 ≤ thr) (h64 : R.radix ^ thr ≤ 2 ^ 64) (st : State)
    (hst : st.error = false) (s : List Nat) :
    (∀ ds, s = ds.map R.getChar → (∀ d ∈ ds, d < R.radix) →
      fromBig R thr s st = some (positional R.radix ds, st)) ∧
    ((∃ c ∈ s, R.isValid c = false) →
      fromBig R thr s st = some (0, { st with error := true, invalidChar := true })) := by
  induction h : s.length using Nat.strong_induction_on generalizing s with
  | _ m ih =>
    subst h
    rw [fromBig]
    by_cases hl : thr < s.length
    · rw [if_pos hl]
      obtain ⟨l, e1, e2, e3⟩ := splitLenLoop_spec s.length R.radix 1 (by omega)
      rw [pow_one] at e1
      have hls := e3 (by omega)
      simp only [e1, dif_pos (And.intro (show 0 < l by omega) hls)]
      have iht := ih (s.take (s.length - l)).length (by simp; omega) (s.take (s.length - l)) rfl
      have ihd := ih (s.drop (s.length - l)).length (by simp; omega) (s.drop (s.length - l)) rfl
      constructor
      · intro ds hs hd
        have hlen : ds.length = s.length := by rw [hs]; simp
        have ht : s.take (s.length - l) = (ds.take (s.length - l)).map R.getChar := by
          rw [List.map_take, ← hs]
        have hdr : s.drop (s.length - l) = (ds.drop (s.length - l)).map R.getChar := by
          rw [List.map_drop, ← hs]
        rw [iht.1 _ ht (fun d h => hd d (List.mem_of_mem_take h))]
        simp only [hst]
        rw [ihd.1 _ hdr (fun d h => hd d (List.mem_of_mem_drop h))]
        simp only [hst]
        have : positional R.radix ds = positional R.radix (ds.take (s.length - l)) * R.radix ^ l +
            positional R.radix (ds.drop (s.length - l)) := by
          conv_lhs => rw [← List.take_append_drop (s.length - l) ds, positional_append]
          rw [List.length_drop, hlen, show s.length - (s.length - l) = l by omega]
        rw [this]; simp
      · intro ⟨c, hc, hv⟩
        rw [← List.take_append_drop (s.length - l) s, List.mem_append] at hc
        rcases digits_or_invalid hR (s.take (s.length - l)) with ⟨ds, g1, g2⟩ | hbad
        · rw [iht.1 ds g1 g2]
          simp only [hst]
          have : ∃ c ∈ s.drop (s.length - l), R.isValid c = false := by
            rcases hc with hc | hc
            · rw [g1] at hc
              obtain ⟨d, hd, rfl⟩ := List.mem_map.1 hc
              rw [hR.valid d (g2 d hd)] at hv; simp at hv
            · exact ⟨c, hc, hv⟩
          rw [ihd.2 this]
          simp
        · rw [iht.2 hbad]; simp
    · rw [if_neg hl]
      constructor
      · intro ds hs hd
        rw [hs, fromNative_digits hR 64 hd]
        have := positional_lt hd
        have hlen : ds.length = s.length := by rw [hs]; simp
        have : R.radix ^ ds.length ≤ R.radix ^ thr := Nat.pow_le_pow_right (by have := hR.two; omega) (by omega)
        rw [Nat.mod_eq_of_lt (by omega)]
      · intro hbad
        rw [fromNative, fromLoop_invalid 64 s st hbad]

end ELC.Numeral
