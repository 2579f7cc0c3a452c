import Verif.Interp.Lemmas
/-!
Properties C160 and C161: characters at fractional positions of a string.

`Spec.line` is the straight line between two values, `Spec.IsRounding` what is assumed of the arithmetic of `double`, `Spec.Short`
numbers of 20 bits behind the point, `Spec.Small` strings whose characters are in the lower half of an unsigned type.
-/
namespace ELC.Interp
open ELC.Interp.Spec
open ELC.Convert (NType)

/-! ### C160 -/

/-- C160, the part that holds: before the last character, the value read at `x` is between the two characters at its sides,
whatever the rounding. -/
theorem read_partial {rnd : ℚ → ℚ} (hr : IsRounding rnd) {T : NType} {s : List Nat} (h : Small T s) {i : Nat} (hi : i + 1 < s.length)
    (hl : s.length < 2 ^ 64) {x : ℚ} (h0 : (i : ℚ) ≤ x) (h1 : x < i + 1) :
    ∃ v, read rnd T s x = some v ∧ (min s[i] s[i + 1] : Nat) ≤ v ∧ v ≤ (max s[i] s[i + 1] : Nat) := by
  have m1 : s[i] ∈ s := List.getElem_mem _
  have m2 : s[i + 1] ∈ s := List.getElem_mem _
  have b1 := small_lt h m1
  have b2 := small_lt h m2
  refine ⟨result rnd s[i] ((s[i + 1] : Int) - s[i]) (x - i), ?_, ?_⟩
  · unfold read
    rw [lower_eq h0 h1 (by omega)]
    simp only [Option.bind_eq_bind, Option.bind_some, List.getElem?_eq_getElem (show i < s.length by omega),
      List.getElem?_eq_getElem hi, slope_small h m1 m2]
    rfl
  · have d0 : 0 ≤ x - i := by linarith
    have d1 : x - i ≤ 1 := by linarith
    generalize x - i = d at d0 d1
    generalize s[i] = y1 at *
    generalize s[i + 1] = y2 at *
    unfold result
    have r0 : rnd 0 = 0 := by simpa using rnd_int hr (n := 0) (by decide)
    have rk : rnd (((y2 : Int) - y1 : Int) : ℚ) = ((y2 : Int) - y1 : Int) :=
      rnd_int hr (by rw [abs_le]; omega)
    have ry1 : rnd y1 = y1 := by simpa using rnd_int hr (n := y1) (by rw [abs_le]; omega)
    have ry2 : rnd y2 = y2 := by simpa using rnd_int hr (n := y2) (by rw [abs_le]; omega)
    rcases Nat.le_total y1 y2 with hy | hy
    · have hyq : (y1 : ℚ) ≤ y2 := by exact_mod_cast hy
      have hk : (0 : ℚ) ≤ (((y2 : Int) - y1 : Int) : ℚ) := by push_cast; linarith
      have p0 := hr.mono (show (0 : ℚ) ≤ (((y2 : Int) - y1 : Int) : ℚ) * d from mul_nonneg hk d0)
      have p1 := hr.mono (show (((y2 : Int) - y1 : Int) : ℚ) * d ≤ (((y2 : Int) - y1 : Int) : ℚ) from mul_le_of_le_one_right hk d1)
      rw [r0] at p0
      rw [rk] at p1
      push_cast at p0 p1 ⊢
      rw [min_eq_left hyq, max_eq_right hyq]
      constructor
      · have := hr.mono (show (y1 : ℚ) ≤ y1 + rnd (((y2 : ℚ) - y1) * d) by linarith)
        rwa [ry1] at this
      · have := hr.mono (show (y1 : ℚ) + rnd (((y2 : ℚ) - y1) * d) ≤ y2 by linarith)
        rwa [ry2] at this
    · have hyq : (y2 : ℚ) ≤ y1 := by exact_mod_cast hy
      have hk : (((y2 : Int) - y1 : Int) : ℚ) ≤ 0 := by push_cast; linarith
      have p0 := hr.mono (show (((y2 : Int) - y1 : Int) : ℚ) * d ≤ 0 from mul_nonpos_of_nonpos_of_nonneg hk d0)
      have p1 := hr.mono (show (((y2 : Int) - y1 : Int) : ℚ) ≤ (((y2 : Int) - y1 : Int) : ℚ) * d by nlinarith)
      rw [r0] at p0
      rw [rk] at p1
      push_cast at p0 p1 ⊢
      rw [min_eq_right hyq, max_eq_left hyq]
      constructor
      · have := hr.mono (show (y2 : ℚ) ≤ y1 + rnd (((y2 : ℚ) - y1) * d) by linarith)
        rwa [ry2] at this
      · have := hr.mono (show (y1 : ℚ) + rnd (((y2 : ℚ) - y1) * d) ≤ y1 by linarith)
        rwa [ry1] at this

/-- C160: at positions of 20 bits behind the point, the value is exactly on the line between the two characters; in
particular at a whole position it is the character there. -/
theorem read_exact {rnd : ℚ → ℚ} (hr : IsRounding rnd) {T : NType} {s : List Nat} (h : Small T s) {i : Nat} (hi : i + 1 < s.length)
    (hl : s.length < 2 ^ 64) {x : ℚ} (h0 : (i : ℚ) ≤ x) (h1 : x < i + 1) (hx : Short x) :
    read rnd T s x = some (line s[i] s[i + 1] (x - i)) := by
  have m1 : s[i] ∈ s := List.getElem_mem _
  have m2 : s[i + 1] ∈ s := List.getElem_mem _
  have b1 := small_lt h m1
  have b2 := small_lt h m2
  unfold read
  rw [lower_eq h0 h1 (by omega)]
  simp only [Option.bind_eq_bind, Option.bind_some, List.getElem?_eq_getElem (show i < s.length by omega),
    List.getElem?_eq_getElem hi, slope_small h m1 m2]
  have hd : Short (x - i) := hx.sub (by simpa using short_int (i : Int))
  rw [result_exact hr (by omega) (by omega) hd (by linarith) (by linarith)]
  rfl

/-- The string "AZ!" at 0, 1/2 and 5/4. -/
example : (read id ⟨false, 2⟩ [65, 90, 33] 0 = some 65 ∧ read id ⟨false, 2⟩ [65, 90, 33] (1 / 2) = some (155 / 2) ∧
    read id ⟨false, 2⟩ [65, 90, 33] (5 / 4) = some (303 / 4)) ∧ Small ⟨false, 2⟩ [65, 90, 33] ∧ IsRounding id := by
  refine ⟨by decide +kernel, ⟨rfl, by decide +kernel, by decide +kernel⟩, ⟨fun h => h, fun _ _ _ _ => rfl⟩⟩

/-- A rounding that is not exact: down to 64 bits behind the point. -/
example : IsRounding (fun q => ⌊q * 2 ^ 64⌋ / 2 ^ 64) := by
  constructor
  · intro a b hab
    have h1 : ⌊a * 2 ^ 64⌋ ≤ ⌊b * 2 ^ 64⌋ := Int.floor_le_floor (by linarith)
    have h2 : ((⌊a * 2 ^ 64⌋ : Int) : ℚ) ≤ ⌊b * 2 ^ 64⌋ := by exact_mod_cast h1
    exact div_le_div_of_nonneg_right h2 (by positivity)
  · intro n m _ hm
    have e : (n : ℚ) / 2 ^ m * 2 ^ 64 = ((n * 2 ^ (64 - m) : Int) : ℚ) := by
      have e1 : (2 : ℚ) ^ 64 = 2 ^ m * 2 ^ (64 - m) := by rw [← pow_add]; congr 1; omega
      rw [e1]
      push_cast
      field_simp
    show ((⌊(n : ℚ) / 2 ^ m * 2 ^ 64⌋ : Int) : ℚ) / 2 ^ 64 = _
    rw [e, Int.floor_intCast, ← e, mul_div_cancel_right₀ _ (by positivity)]

/-- C160, for which positions there is a value at all. -/
theorem read_characterised (rnd : ℚ → ℚ) {T : NType} {s : List Nat} (h : Small T s) (hl : s.length < 2 ^ 64) (x : ℚ) :
    (read rnd T s x).isSome = true ↔ -1 < x ∧ x + 1 < s.length ∧ 1 < s.length := by
  unfold read lower
  by_cases hx : x ≤ -1 ∨ 2 ^ 64 ≤ x
  · rw [if_pos hx]
    simp only [Option.bind_eq_bind, Option.bind_none, Option.isSome_none, Bool.false_eq_true, false_iff]
    rintro ⟨g1, g2, _⟩
    rcases hx with hx | hx
    · linarith
    · have : (s.length : ℚ) < 2 ^ 64 := by exact_mod_cast hl
      linarith
  · rw [if_neg hx]
    push Not at hx
    have key : ⌊x⌋.toNat + 1 < s.length ↔ x + 1 < s.length ∧ 1 < s.length := by
      rcases le_or_gt 0 x with hp | hp
      · have hf : 0 ≤ ⌊x⌋ := Int.floor_nonneg.2 hp
        have e : (⌊x⌋.toNat : Int) = ⌊x⌋ := Int.toNat_of_nonneg hf
        constructor
        · intro g
          refine ⟨?_, by omega⟩
          have h2 : ⌊x⌋ + 1 < (s.length : Int) := by omega
          have h3 : ⌊x⌋ + 1 ≤ (s.length : Int) - 1 := by omega
          have h4 : ((⌊x⌋ + 1 : Int) : ℚ) ≤ ((s.length : Int) - 1 : Int) := by exact_mod_cast h3
          have h5 := Int.lt_floor_add_one x
          push_cast at h4
          linarith
        · rintro ⟨g, _⟩
          have h2 := Int.floor_le x
          have h3 : ((⌊x⌋ + 1 : Int) : ℚ) < (s.length : Int) := by push_cast; linarith
          have h4 : ⌊x⌋ + 1 < (s.length : Int) := by exact_mod_cast h3
          omega
      · have hf : ⌊x⌋ < 0 := by
          rw [Int.floor_lt]
          exact_mod_cast hp
        have e : ⌊x⌋.toNat = 0 := Int.toNat_of_nonpos (by omega)
        rw [e]
        constructor
        · intro g
          have : (1 : ℚ) < s.length := by exact_mod_cast g
          exact ⟨by linarith, by omega⟩
        · rintro ⟨_, g⟩
          omega
    simp only [Option.bind_eq_bind, Option.bind_some]
    by_cases hi : ⌊x⌋.toNat + 1 < s.length
    · rw [List.getElem?_eq_getElem (show ⌊x⌋.toNat < s.length by omega), List.getElem?_eq_getElem hi]
      simp only [Option.bind_some, slope_small h (List.getElem_mem _) (List.getElem_mem _)]
      simp only [pure, Option.isSome_some, true_iff]
      exact ⟨hx.1, key.1 hi⟩
    · rw [List.getElem?_eq_none (show s.length ≤ ⌊x⌋.toNat + 1 by omega)]
      simp only [Option.bind_none, Option.bind_fun_none, Option.isSome_none, Bool.false_eq_true, false_iff]
      rintro ⟨_, g⟩
      exact hi (key.2 g)

/-- C160 is false of the program: at the position of the last character, which is in the string, reading runs behind its end,
for every string; and of characters from 2^31 on a value is not between its neighbours. -/
theorem read_refuted :
    (∀ (rnd : ℚ → ℚ) (T : NType) (s : List Nat), s ≠ [] → read rnd T s (s.length - 1) = none) ∧
    read id ⟨false, 2⟩ [0, 2 ^ 31] (1 / 2) = some (-2 ^ 30) := by
  constructor
  · intro rnd T s hs
    have hp : 0 < s.length := List.length_pos_iff.2 hs
    unfold read lower
    split
    · rfl
    · have e : ((s.length : ℚ) - 1) = ((s.length - 1 : Nat) : Int) := by
        rw [Nat.cast_sub hp]
        push_cast
        ring
      rw [e, Int.floor_intCast, Int.toNat_natCast]
      have e2 : s[s.length - 1 + 1]? = none := List.getElem?_eq_none (by omega)
      simp only [Option.bind_eq_bind, Option.bind_some, e2, Option.bind_none, Option.bind_fun_none]
  · decide +kernel

/-! ### C161 -/

/-- C161, the part that holds: if the line through `a` at `x` with the slope between the two characters does not leave the
characters that the differences are right for, assigning `a` at `x` puts both on it, rounded down; no other character changes, and
what is read at `x` afterwards is `a`, or less than 1 below. -/
theorem write_partial {rnd : ℚ → ℚ} (hr : IsRounding rnd) {T : NType} {s : List Nat} (h : Small T s) {i : Nat} (hi : i + 1 < s.length)
    (hl : s.length < 2 ^ 64) {x a : ℚ} (h0 : (i : ℚ) ≤ x) (h1 : x < i + 1) (hx : Short x) (ha : Short a)
    (hz1 : 0 ≤ a - ((s[i + 1] : ℚ) - s[i]) * (x - i) ∧ a - ((s[i + 1] : ℚ) - s[i]) * (x - i) < 2 ^ (T.bits - 1))
    (hz2 : 0 ≤ a + ((s[i + 1] : ℚ) - s[i]) * (i + 1 - x) ∧ a + ((s[i + 1] : ℚ) - s[i]) * (i + 1 - x) < 2 ^ (T.bits - 1)) :
    ∃ s' z1 z2, write rnd T s x a = some s' ∧ s'.length = s.length ∧ s'[i]? = some z1 ∧ s'[i + 1]? = some z2 ∧
      (∀ j, j ≠ i → j ≠ i + 1 → s'[j]? = s[j]?) ∧
      ((z1 : ℚ) ≤ a - ((s[i + 1] : ℚ) - s[i]) * (x - i) ∧ a - ((s[i + 1] : ℚ) - s[i]) * (x - i) < z1 + 1) ∧
      ((z2 : ℚ) ≤ a + ((s[i + 1] : ℚ) - s[i]) * (i + 1 - x) ∧ a + ((s[i + 1] : ℚ) - s[i]) * (i + 1 - x) < z2 + 1) ∧
      ∃ v, read rnd T s' x = some v ∧ v ≤ a ∧ a < v + 1 ∧
        ((z1 : ℚ) = a - ((s[i + 1] : ℚ) - s[i]) * (x - i) → (z2 : ℚ) = a + ((s[i + 1] : ℚ) - s[i]) * (i + 1 - x) → v = a) := by
  have m1 : s[i] ∈ s := List.getElem_mem _
  have m2 : s[i + 1] ∈ s := List.getElem_mem _
  have b1 := small_lt h m1
  have b2 := small_lt h m2
  have hTle : (2 : ℚ) ^ (T.bits - 1) ≤ 2 ^ 31 := pow_le_pow_right₀ (by norm_num) (by have := h.2.1; omega)
  have hTlt : (2 : ℚ) ^ (T.bits - 1) ≤ 2 ^ T.bits := pow_le_pow_right₀ (by norm_num) (by omega)
  have q1 : (s[i] : ℚ) < 2 ^ 31 := by exact_mod_cast b1
  have q2 : (s[i + 1] : ℚ) < 2 ^ 31 := by exact_mod_cast b2
  have n1 : (0 : ℚ) ≤ s[i] := by positivity
  have n2 : (0 : ℚ) ≤ s[i + 1] := by positivity
  have hd : Short (x - i) := hx.sub (by simpa using short_int (i : Int))
  have hd' : Short (x - (i + 1 : Nat)) := hx.sub (by simpa using short_int ((i + 1 : Nat) : Int))
  have d0 : 0 ≤ x - i := by linarith
  have d1 : x - i ≤ 1 := by linarith
  have hab : |a| ≤ 2 ^ 32 := by
    have hm := mul_bound (show |(s[i + 1] : ℚ) - s[i]| ≤ 2 ^ 31 by rw [abs_le]; constructor <;> linarith)
      (show |x - i| ≤ 1 by rw [abs_of_nonneg d0]; exact d1)
    rw [abs_le] at hm ⊢
    constructor <;> linarith
  have hk : |(s[i + 1] : Int) - s[i]| ≤ 2 ^ 31 := by rw [abs_le]; omega
  obtain ⟨z1, t1, t2, t3⟩ := toChar_spec hz1.1 (lt_of_lt_of_le hz1.2 hTlt)
  obtain ⟨z2, u1, u2, u3⟩ := toChar_spec hz2.1 (lt_of_lt_of_le hz2.2 hTlt)
  have r1 : reverse rnd ((s[i + 1] : Int) - s[i]) (x - i) a = a - ((s[i + 1] : ℚ) - s[i]) * (x - i) := by
    rw [reverse_exact hr hk hd (by rw [abs_of_nonneg d0]; exact d1) ha hab]
    push_cast
    rfl
  have r2 : reverse rnd ((s[i + 1] : Int) - s[i]) (x - (i + 1 : Nat)) a = a + ((s[i + 1] : ℚ) - s[i]) * (i + 1 - x) := by
    rw [reverse_exact hr hk hd' (by push_cast; rw [abs_le]; constructor <;> linarith) ha hab]
    push_cast
    ring
  refine ⟨(s.set i z1).set (i + 1) z2, z1, z2, ?_, by simp, ?_, ?_, ?_, ⟨t2, t3⟩, ⟨u2, u3⟩, ?_⟩
  · unfold write
    rw [lower_eq h0 h1 (by omega)]
    simp only [Option.bind_eq_bind, Option.bind_some, List.getElem?_eq_getElem (show i < s.length by omega),
      List.getElem?_eq_getElem hi, slope_small h m1 m2]
    rw [r1, r2, t1, u1]
    rfl
  · rw [List.getElem?_set_ne (by omega), List.getElem?_set_self (by omega)]
  · rw [List.getElem?_set_self (by simpa using hi)]
  · intro j g1 g2
    rw [List.getElem?_set_ne (by omega), List.getElem?_set_ne (by omega)]
  · have l1 : (z1 : ℚ) < 2 ^ (T.bits - 1) := lt_of_le_of_lt t2 hz1.2
    have l2 : (z2 : ℚ) < 2 ^ (T.bits - 1) := lt_of_le_of_lt u2 hz2.2
    have h' : Small T ((s.set i z1).set (i + 1) z2) := by
      refine ⟨h.1, h.2.1, ?_⟩
      intro c hc
      rcases List.mem_or_eq_of_mem_set hc with hc | rfl
      · rcases List.mem_or_eq_of_mem_set hc with hc | rfl
        · exact h.2.2 _ hc
        · exact_mod_cast l1
      · exact_mod_cast l2
    have e1 : ((s.set i z1).set (i + 1) z2)[i]'(by simp; omega) = z1 := by
      rw [List.getElem_set_ne (by omega), List.getElem_set_self]
    have e2 : ((s.set i z1).set (i + 1) z2)[i + 1]'(by simp; omega) = z2 := by
      rw [List.getElem_set_self]
    refine ⟨_, read_exact hr h' (by simpa using hi) (by simpa using hl) h0 h1 hx, ?_⟩
    rw [e1, e2]
    unfold line
    have e3 : (i : ℚ) + 1 - x = 1 - (x - i) := by ring
    rw [e3] at u2 u3 ⊢
    generalize x - i = d at *
    generalize (s[i + 1] : ℚ) - s[i] = k at *
    have d2 : 0 ≤ 1 - d := by linarith
    have p1 := mul_nonneg d2 (show 0 ≤ a - k * d - z1 by linarith)
    have p2 := mul_nonneg d0 (show 0 ≤ a + k * (1 - d) - z2 by linarith)
    refine ⟨by linarith, ?_, ?_⟩
    · rcases d0.eq_or_lt with hd0 | hd0
      · rw [← hd0] at t3 ⊢
        linarith
      · have p3 := mul_lt_mul_of_pos_left (show a + k * (1 - d) - z2 < 1 by linarith) hd0
        have p4 := mul_le_mul_of_nonneg_left (show a - k * d - z1 ≤ 1 by linarith) d2
        linarith
    · intro g1 g2
      rw [g1, g2]
      ring

/-- The string of 100, 200 and 7: at 1/2 the value becomes 170. -/
example : write id ⟨false, 2⟩ [100, 200, 7] (1 / 2) 170 = some [120, 220, 7] ∧
    read id ⟨false, 2⟩ [120, 220, 7] (1 / 2) = some 170 := by decide +kernel

/-- **C161, when assigning is defined**: exactly if both places of the line, rounded towards zero, are characters of the type. -/
theorem write_defined_characterised {rnd : ℚ → ℚ} (hr : IsRounding rnd) {T : NType} {s : List Nat} (h : Small T s) {i : Nat}
    (hi : i + 1 < s.length) (hl : s.length < 2 ^ 64) {x a : ℚ} (h0 : (i : ℚ) ≤ x) (h1 : x < i + 1) (hx : Short x) (ha : Short a)
    (hab : |a| ≤ 2 ^ 32) :
    write rnd T s x a ≠ none ↔
      (-1 < a - ((s[i + 1] : ℚ) - s[i]) * (x - i) ∧ a - ((s[i + 1] : ℚ) - s[i]) * (x - i) < 2 ^ T.bits) ∧
      (-1 < a + ((s[i + 1] : ℚ) - s[i]) * (i + 1 - x) ∧ a + ((s[i + 1] : ℚ) - s[i]) * (i + 1 - x) < 2 ^ T.bits) := by
  have m1 : s[i] ∈ s := List.getElem_mem _
  have m2 : s[i + 1] ∈ s := List.getElem_mem _
  have b1 := small_lt h m1
  have b2 := small_lt h m2
  have hd : Short (x - i) := hx.sub (by simpa using short_int (i : Int))
  have hd' : Short (x - (i + 1 : Nat)) := hx.sub (by simpa using short_int ((i + 1 : Nat) : Int))
  have d0 : 0 ≤ x - i := by linarith
  have d1 : x - i ≤ 1 := by linarith
  have hk : |(s[i + 1] : Int) - s[i]| ≤ 2 ^ 31 := by rw [abs_le]; omega
  have r1 : reverse rnd ((s[i + 1] : Int) - s[i]) (x - i) a = a - ((s[i + 1] : ℚ) - s[i]) * (x - i) := by
    rw [reverse_exact hr hk hd (by rw [abs_of_nonneg d0]; exact d1) ha hab]
    push_cast
    rfl
  have r2 : reverse rnd ((s[i + 1] : Int) - s[i]) (x - (i + 1 : Nat)) a = a + ((s[i + 1] : ℚ) - s[i]) * (i + 1 - x) := by
    rw [reverse_exact hr hk hd' (by push_cast; rw [abs_le]; constructor <;> linarith) ha hab]
    push_cast
    ring
  have ht : ∀ v : ℚ, (toChar T v = none ↔ ¬ (-1 < v ∧ v < 2 ^ T.bits)) := by
    intro v
    unfold toChar
    rw [← not_le, ← not_le, ← not_or, not_not]
    by_cases hv : v ≤ -1 ∨ 2 ^ T.bits ≤ v
    · rw [if_pos hv]; exact ⟨fun _ => hv, fun _ => rfl⟩
    · rw [if_neg hv]; exact ⟨nofun, fun h => absurd h hv⟩
  unfold write
  rw [lower_eq h0 h1 (by omega)]
  simp only [Option.bind_eq_bind, Option.bind_some, List.getElem?_eq_getElem (show i < s.length by omega),
    List.getElem?_eq_getElem hi, slope_small h m1 m2]
  rw [r1, r2]
  have t1 := ht (a - ((s[i + 1] : ℚ) - s[i]) * (x - i))
  have t2 := ht (a + ((s[i + 1] : ℚ) - s[i]) * (i + 1 - x))
  cases e1 : toChar T (a - ((s[i + 1] : ℚ) - s[i]) * (x - i)) with
  | none => exact ⟨fun hn => absurd rfl hn, fun hg => absurd hg.1 (t1.1 e1)⟩
  | some z1 =>
    rw [e1] at t1
    have g1 := not_not.1 (fun hn => Option.some_ne_none z1 (t1.2 hn))
    cases e2 : toChar T (a + ((s[i + 1] : ℚ) - s[i]) * (i + 1 - x)) with
    | none => exact ⟨fun hn => absurd rfl hn, fun hg => absurd hg.2 (t2.1 e2)⟩
    | some z2 =>
      rw [e2] at t2
      exact ⟨fun _ => ⟨g1, not_not.1 (fun hn => Option.some_ne_none z2 (t2.2 hn))⟩, fun _ => nofun⟩

/-- C161, what assigning at a whole position does: the character is the one assigned, and the next one is moved by as much. -/
theorem write_whole {rnd : ℚ → ℚ} (hr : IsRounding rnd) {T : NType} {s : List Nat} (h : Small T s) {i : Nat} (hi : i + 1 < s.length)
    (hl : s.length < 2 ^ 64) {c n : Nat} (hc : c < 2 ^ (T.bits - 1)) (hn : n < 2 ^ (T.bits - 1)) (he : n + s[i] = s[i + 1] + c) :
    write rnd T s i c = some ((s.set i c).set (i + 1) n) := by
  obtain ⟨s', z1, z2, w1, w2, w3, w4, w5, ⟨w6, w7⟩, ⟨w8, w9⟩, _⟩ := write_partial hr h hi hl (x := i) (a := c) (le_refl _) (by linarith)
    (by simpa using short_int (i : Int)) (by simpa using short_int (c : Int))
    (by rw [sub_self, mul_zero, sub_zero]; exact ⟨by positivity, by exact_mod_cast hc⟩)
    (by
      have e : (c : ℚ) + ((s[i + 1] : ℚ) - s[i]) * (i + 1 - i) = n := by
        have : (n : ℚ) + s[i] = s[i + 1] + c := by exact_mod_cast he
        linarith
      rw [e]
      exact ⟨by positivity, by exact_mod_cast hn⟩)
  have hq : (n : ℚ) + s[i] = s[i + 1] + c := by exact_mod_cast he
  rw [w1, Option.some.injEq]
  have z1c : z1 = c := by
    have g1 : (z1 : ℚ) ≤ c := by linarith
    have g2 : (c : ℚ) < z1 + 1 := by linarith
    have g1' : z1 ≤ c := by exact_mod_cast g1
    have g2' : c < z1 + 1 := by exact_mod_cast g2
    omega
  have z2n : z2 = n := by
    have g1 : (z2 : ℚ) ≤ n := by linarith
    have g2 : (n : ℚ) < z2 + 1 := by linarith
    have g1' : z2 ≤ n := by exact_mod_cast g1
    have g2' : n < z2 + 1 := by exact_mod_cast g2
    omega
  subst z1c z2n
  apply List.ext_getElem?
  intro j
  by_cases j1 : j = i + 1
  · subst j1
    rw [w4, List.getElem?_set_self (by simpa using hi)]
  · rw [List.getElem?_set_ne (by omega)]
    by_cases j0 : j = i
    · subst j0
      rw [w3, List.getElem?_set_self (by omega)]
    · rw [List.getElem?_set_ne (by omega), w5 j j0 j1]

/-- C161 is false of the program: assigning at a whole position changes the next character too; between two characters that are far
apart, a character in the middle of them cannot be assigned; and at the last character it writes behind the end. -/
theorem write_refuted :
    (∀ rnd, IsRounding rnd → write rnd ⟨false, 2⟩ [5, 7, 9] 1 20 = some [5, 20, 22]) ∧
    (∀ rnd, IsRounding rnd → write rnd ⟨false, 2⟩ [0, 200] (1 / 2) 10 = none) ∧
    (∀ (rnd : ℚ → ℚ) (T : NType) (s : List Nat) (a : ℚ), s ≠ [] → write rnd T s (s.length - 1) a = none) := by
  refine ⟨?_, ?_, ?_⟩
  · intro rnd hr
    have := write_whole hr (T := ⟨false, 2⟩) (s := [5, 7, 9]) ⟨rfl, by decide +kernel, by decide +kernel⟩ (i := 1) (by decide)
      (by decide) (c := 20) (n := 22) (by decide +kernel) (by decide +kernel) (by decide)
    simpa using this
  · intro rnd hr
    have hS : Small ⟨false, 2⟩ [0, 200] := ⟨rfl, by decide +kernel, by decide +kernel⟩
    unfold write
    rw [lower_eq (i := 0) (by norm_num) (by norm_num) (by decide)]
    simp only [Option.bind_eq_bind, Option.bind_some, List.getElem?_cons_zero, List.getElem?_cons_succ, Nat.zero_add,
      slope_small hS (show 0 ∈ [0, 200] by decide) (show 200 ∈ [0, 200] by decide)]
    rw [reverse_exact hr (by decide) ⟨2 ^ 19, by norm_num⟩ (by norm_num [abs_le]) ⟨10 * 2 ^ 20, by norm_num⟩ (by norm_num [abs_le])]
    unfold toChar
    rw [if_pos (by left; norm_num)]
    rfl
  · intro rnd T s a hs
    have hp : 0 < s.length := List.length_pos_iff.2 hs
    unfold write lower
    split
    · rfl
    · have e : ((s.length : ℚ) - 1) = ((s.length - 1 : Nat) : Int) := by
        rw [Nat.cast_sub hp]
        push_cast
        ring
      rw [e, Int.floor_intCast, Int.toNat_natCast]
      have e2 : s[s.length - 1 + 1]? = none := List.getElem?_eq_none (by omega)
      simp only [Option.bind_eq_bind, Option.bind_some, e2, Option.bind_none, Option.bind_fun_none]

end ELC.Interp
