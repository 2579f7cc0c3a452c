import Verif.Float.Decomp
/-! Conversion of a fraction to a native floating point number. -/
namespace ELC.Float

open Spec
open ELC.Bigfloat (UFrac)

variable {I : Info} {f : Format}

theorem quotLoop_some {w d : Nat} (hd : 0 < d) : ∀ (fuel n : Nat) (e : ℤ),
    d * 2 ^ w ≤ n * 2 ^ (fuel * w) →
    ∃ Q e', quotLoop w d (fuel + 1) n e = some (Q, e') ∧
      (Q : ℚ) * 2 ^ e' ≤ n / d * 2 ^ e ∧ (n : ℚ) / d * 2 ^ e < (Q + 1) * 2 ^ e' ∧
      ((Q : ℚ) * 2 ^ e' = n / d * 2 ^ e ∨ 2 ^ w ≤ Q) := by
  intro fuel
  have hd' : (0 : ℚ) < d := by exact_mod_cast hd
  have stop : ∀ (n : Nat) (e : ℤ), (n % d = 0 ∨ 2 ^ w ≤ n / d) →
      (((n / d : Nat) : ℚ) * 2 ^ e ≤ n / d * 2 ^ e ∧ (n : ℚ) / d * 2 ^ e < ((n / d : Nat) + 1 : ℚ) * 2 ^ e ∧
      (((n / d : Nat) : ℚ) * 2 ^ e = n / d * 2 ^ e ∨ 2 ^ w ≤ n / d)) := by
    intro n e hs
    have hp := two_zpow_pos e
    have hdm := Nat.div_add_mod n d
    have hlt := Nat.mod_lt n hd
    refine ⟨mul_le_mul_of_nonneg_right ?_ hp.le, mul_lt_mul_of_pos_right ?_ hp, ?_⟩
    · rw [le_div_iff₀ hd']
      have : n / d * d ≤ n := by rw [Nat.mul_comm]; omega
      exact_mod_cast this
    · rw [div_lt_iff₀ hd']
      have : n < (n / d + 1) * d := by rw [Nat.add_mul, Nat.mul_comm (n / d)]; omega
      exact_mod_cast this
    · rcases hs with hs | hs
      · left
        congr 1
        rw [eq_div_iff hd'.ne']
        have : n / d * d = n := by rw [Nat.mul_comm]; omega
        exact_mod_cast this
      · exact Or.inr hs
  induction fuel with
  | zero =>
    intro n e h
    rw [quotLoop]
    have h2 : 2 ^ w ≤ n / d := (Nat.le_div_iff_mul_le hd).2 (by rw [Nat.mul_comm]; simpa using h)
    rw [if_neg]
    · exact ⟨_, _, rfl, stop n e (Or.inr h2)⟩
    · rintro ⟨_, h3⟩
      rw [Nat.shiftRight_eq_div_pow] at h3
      have := Nat.div_pos h2 (Nat.two_pow_pos w)
      omega
  | succ fuel ih =>
    intro n e h
    rw [quotLoop]
    split
    · have e1 : (n <<< w) * 2 ^ (fuel * w) = n * 2 ^ ((fuel + 1) * w) := by
        rw [Nat.shiftLeft_eq, Nat.mul_assoc, ← pow_add]; congr 2; ring
      obtain ⟨Q, e', h1, h2, h3, h4⟩ := ih (n <<< w) (e - w) (by rw [e1]; exact h)
      have e2 : ((n <<< w : Nat) : ℚ) / d * 2 ^ (e - w) = n / d * 2 ^ e := by
        rw [Nat.shiftLeft_eq, show e - (w : ℤ) = e + -w by ring, two_zpow_add, zpow_neg, zpow_natCast]
        push_cast
        have : (2 : ℚ) ^ w ≠ 0 := by positivity
        field_simp
      rw [e2] at h2 h3 h4
      exact ⟨Q, e', h1, h2, h3, h4⟩
    · rename_i hc
      refine ⟨_, _, rfl, stop n e ?_⟩
      by_cases h0 : n % d = 0
      · exact Or.inl h0
      · right
        by_contra h1
        exact hc ⟨h0, by rw [Nat.shiftRight_eq_div_pow]; exact Nat.div_eq_of_lt (by omega)⟩

/-- What the steps before `make_float` leave. -/
theorem toFloat_steps (h : Agrees I f) {N D : Nat} (hN : N ≠ 0) (hD : D ≠ 0) :
    ∃ (y : Nat) (g : ℤ), (y : ℚ) * 2 ^ g ≤ N / D ∧ (N : ℚ) / D < (y + 1) * 2 ^ g ∧
      ((∃ (n : Nat) (e : ℤ), toFloat I ⟨N, D⟩ = makeFloat I n e ∧ n < 2 ^ f.width ∧ n ≠ 0 ∧
          (n : ℚ) * 2 ^ e = y * 2 ^ g ∧ ((y : ℚ) * 2 ^ g = N / D ∨ 2 ^ f.width ≤ y)) ∨
        ((y : ℚ) * 2 ^ g < N / D ∧ 2 ^ (f.width - 1) ≤ y ∧ y < 2 ^ f.width ∧ toFloat I ⟨N, D⟩ = makeFloat I ((y + 1) % 2 ^ f.width) g)) := by
  obtain ⟨n1, n2⟩ := ctz_spec N
  obtain ⟨d1, d2⟩ := ctz_spec D
  have hW : 0 < f.width := by have := h.room; omega
  unfold toFloat
  rw [if_neg hD]
  dsimp only
  rw [h.width]
  generalize ctz N = cn at *
  generalize ctz D = cd at *
  generalize N >>> cn = n at *
  generalize D >>> cd = d at *
  have hn : 0 < n := by have := n2 hN; omega
  have hd : 0 < d := by have := d2 hD; omega
  have hfuel : d * 2 ^ f.width ≤ n * 2 ^ ((d + 1) * f.width) := by
    have a : d < 2 ^ d := Nat.lt_two_pow_self
    have b : 2 ^ d ≤ 2 ^ (d * f.width) := Nat.pow_le_pow_right (by norm_num) (Nat.le_mul_of_pos_right d hW)
    rw [Nat.add_mul, Nat.one_mul, pow_add, ← Nat.mul_assoc]
    apply Nat.mul_le_mul_right
    calc d ≤ 2 ^ (d * f.width) := by omega
      _ ≤ n * 2 ^ (d * f.width) := Nat.le_mul_of_pos_left _ hn
  obtain ⟨Q, e', q1, q2, q3, q4⟩ := quotLoop_some hd (d + 1) n ((cn : ℤ) - cd) hfuel
  rw [q1]
  dsimp only
  have hq : (n : ℚ) / d * 2 ^ ((cn : ℤ) - cd) = N / D := by
    have hd' : (d : ℚ) ≠ 0 := by exact_mod_cast hd.ne'
    rw [n1, d1, show (cn : ℤ) - cd = (cn : ℤ) + -(cd : ℤ) by ring, two_zpow_add, zpow_neg, zpow_natCast, zpow_natCast]
    push_cast
    field_simp
  rw [hq] at q2 q3 q4
  have hNq : (0 : ℚ) < N / D := by
    have a : (0 : ℚ) < N := by exact_mod_cast Nat.pos_of_ne_zero hN
    have b : (0 : ℚ) < D := by exact_mod_cast Nat.pos_of_ne_zero hD
    exact div_pos a b
  have hQ : Q ≠ 0 := by
    intro h0
    subst h0
    rcases q4 with q4 | q4
    · simp at q4; linarith
    · have := Nat.two_pow_pos f.width; omega
  obtain ⟨c1, c2⟩ := ctz_spec Q
  have c3 := c2 hQ
  generalize ctz Q = c at *
  generalize hm : Q >>> c = m at *
  have hm0 : m ≠ 0 := by omega
  have hval : (m : ℚ) * 2 ^ (e' + c) = Q * 2 ^ e' := by
    rw [two_zpow_add, c1, two_zpow_nat]; push_cast; ring
  by_cases hdiff : 0 < (bitnum m : ℤ) - f.width
  · rw [if_pos hdiff, if_pos hdiff]
    obtain ⟨t, ht⟩ : ∃ t : Nat, (bitnum m : ℤ) - f.width = t := ⟨((bitnum m : ℤ) - f.width).toNat, by omega⟩
    rw [ht, Int.toNat_natCast, Nat.shiftRight_eq_div_pow]
    have hpt := Nat.two_pow_pos t
    obtain ⟨b1, b2⟩ := bitnum_bounds hm0
    have hb : bitnum m = f.width + t := by omega
    rw [hb] at b1 b2
    have hdm := Nat.div_add_mod m (2 ^ t)
    have hml := Nat.mod_lt m hpt
    have hstrict : ((m / 2 ^ t : Nat) : ℚ) * 2 ^ (e' + c + t) < N / D := by
      refine lt_of_lt_of_le ?_ q2
      rw [← hval, two_zpow_add (e' + c), mul_comm ((2 : ℚ) ^ (e' + c)), ← mul_assoc]
      apply mul_lt_mul_of_pos_right _ (two_zpow_pos _)
      rw [two_zpow_nat]
      have : m / 2 ^ t * 2 ^ t < m := by
        obtain ⟨u, rfl⟩ : ∃ u, t = u + 1 := ⟨t - 1, by omega⟩
        have : m / 2 ^ (u + 1) * 2 ^ (u + 1) = m / 2 ^ (u + 1) * 2 ^ u * 2 := by rw [pow_succ]; ring
        rw [Nat.mul_comm (2 ^ (u + 1))] at hdm
        omega
      exact_mod_cast this
    refine ⟨m / 2 ^ t, e' + c + t, hstrict.le, ?_, Or.inr ⟨hstrict, ?_, ?_, rfl⟩⟩
    · refine lt_of_lt_of_le q3 ?_
      rw [show e' + (c : ℤ) + t = ((c + t : Nat) : ℤ) + e' by push_cast; ring, two_zpow_add, ← mul_assoc]
      apply mul_le_mul_of_nonneg_right _ (two_zpow_pos _).le
      rw [two_zpow_nat]
      have : Q + 1 ≤ (m / 2 ^ t + 1) * 2 ^ (c + t) := by
        have h1 : m < (m / 2 ^ t + 1) * 2 ^ t := by rw [Nat.add_mul, Nat.mul_comm (m / _)]; omega
        have h2 : m * 2 ^ c < (m / 2 ^ t + 1) * 2 ^ t * 2 ^ c := Nat.mul_lt_mul_of_pos_right h1 (Nat.two_pow_pos c)
        rw [← c1, Nat.mul_assoc, ← pow_add, Nat.add_comm t c] at h2
        omega
      exact_mod_cast this
    · rw [Nat.le_div_iff_mul_le hpt, ← pow_add]
      rwa [show f.width - 1 + t = f.width + t - 1 by omega]
    · rw [Nat.div_lt_iff_lt_mul hpt, ← pow_add]; exact b2
  · rw [if_neg hdiff, if_neg hdiff]
    have hlt : m < 2 ^ f.width := lt_of_bitnum_le (by omega)
    rw [Nat.mod_eq_of_lt hlt]
    exact ⟨Q, e', q2, q3, Or.inl ⟨m, e' + c, rfl, hlt, hm0, hval, q4⟩⟩

/-- A multiple of a power of two is not strictly inside a step of a finer or equal grid. -/
theorem grid (m y : Nat) (t g : ℤ) (B : Nat) (hm : m < 2 ^ (B + 1)) (hy : 2 ^ B ≤ y) :
    (m : ℚ) * 2 ^ t ≤ y * 2 ^ g ∨ ((y : ℚ) + 1) * 2 ^ g ≤ m * 2 ^ t := by
  by_cases htg : g ≤ t
  · obtain ⟨k, rfl⟩ : ∃ k : Nat, t = k + g := ⟨(t - g).toNat, by omega⟩
    rw [two_zpow_add, ← mul_assoc, two_zpow_nat]
    have hp := two_zpow_pos g
    rcases Nat.lt_or_ge y (m * 2 ^ k) with h | h
    · right
      apply mul_le_mul_of_nonneg_right _ hp.le
      exact_mod_cast h
    · left
      apply mul_le_mul_of_nonneg_right _ hp.le
      exact_mod_cast h
  · left
    obtain ⟨k, rfl⟩ : ∃ k : Nat, g = (k + 1 : Nat) + t := ⟨(g - t - 1).toNat, by omega⟩
    rw [two_zpow_add, ← mul_assoc, two_zpow_nat]
    apply mul_le_mul_of_nonneg_right _ (two_zpow_pos t).le
    have : m ≤ y * 2 ^ (k + 1) := by
      calc m ≤ 2 ^ (B + 1) := hm.le
        _ = 2 ^ B * 2 ^ 1 := by rw [pow_add]
        _ ≤ y * 2 ^ (k + 1) := Nat.mul_le_mul hy (Nat.pow_le_pow_right (by norm_num) (by omega))
    exact_mod_cast this

theorem magnitude_form (h : Agrees I f) {d : Nat} (hd : Plain f d) :
    ∃ (m : Nat) (t : ℤ), m < 2 ^ (f.p + 1) ∧ magnitude f d = m * 2 ^ t := by
  obtain ⟨m, h1, h2⟩ := units_form f.p d
  refine ⟨m, ((d / 2 ^ f.p - 1 : Nat) : ℤ) + -(Kof f : ℤ), h1, ?_⟩
  rw [magnitude_plain h hd.1, h2, two_zpow_add, zpow_natCast, ← mul_assoc]
  push_cast; rfl

/-- No number of the format is strictly inside a step of a fine grid. -/
theorem magnitude_grid (h : Agrees I f) {d : Nat} (hd : Plain f d) {y : Nat} (hy : 2 ^ f.p ≤ y) (g : ℤ) :
    magnitude f d ≤ y * 2 ^ g ∨ ((y : ℚ) + 1) * 2 ^ g ≤ magnitude f d := by
  obtain ⟨m, t, h1, h2⟩ := magnitude_form h hd
  rw [h2]
  exact grid m y t g f.p h1 hy

theorem pow_grid (k : ℤ) {y : Nat} (hy : 1 ≤ y) (g : ℤ) :
    (2 : ℚ) ^ k ≤ y * 2 ^ g ∨ ((y : ℚ) + 1) * 2 ^ g ≤ 2 ^ k := by
  have := grid 1 y k g 0 (by norm_num) (by simpa using hy)
  simpa using this

/-- Rounding down to a fine grid first does not change what is rounded down to. -/
theorem down_grid (h : Agrees I f) {q : ℚ} {y : Nat} {g : ℤ} (hy : 2 ^ f.p ≤ y) (h1 : (y : ℚ) * 2 ^ g ≤ q)
    (h2 : q < (y + 1) * 2 ^ g) {r : Nat} (hr : Down f (y * 2 ^ g) r) : Down f q r := by
  refine ⟨hr.1, le_trans hr.2.1 h1, fun d' hd' hle => hr.2.2 d' hd' ?_⟩
  rcases magnitude_grid h hd' hy g with h3 | h3
  · exact h3
  · linarith

/-- Rounding up to a fine grid first leads to one of the two neighbours. -/
theorem down_grid_up (h : Agrees I f) {q : ℚ} {y : Nat} {g : ℤ} (hy : 2 ^ f.p ≤ y) (h1 : (y : ℚ) * 2 ^ g < q)
    (h2 : q < (y + 1) * 2 ^ g) {r : Nat} (hr : Down f ((y + 1) * 2 ^ g) r) :
    Down f q r ∨ (Up f q r ∧ magnitude f r = (y + 1) * 2 ^ g) := by
  rcases magnitude_grid h hr.1 hy g with h3 | h3
  · left
    refine ⟨hr.1, le_trans h3 h1.le, fun d' hd' hle => hr.2.2 d' hd' (le_trans hle h2.le)⟩
  · right
    have he := le_antisymm hr.2.1 h3
    refine ⟨⟨hr.1, by rw [he]; exact h2.le, fun d' hd' hle => ?_⟩, he⟩
    rcases magnitude_grid h hd' hy g with h4 | h4
    · linarith
    · rw [he]; exact h4

/-- The first `w` binary digits of `q` are all ones. -/
def Ones (w : Nat) (q : ℚ) : Prop := ∃ g : ℤ, ((2 : ℚ) ^ w - 1) * 2 ^ g ≤ q ∧ q < 2 ^ w * 2 ^ g

theorem not_ones {w : Nat} {q : ℚ} (hq : ¬ Ones w q) {y : Nat} {g : ℤ} (hy : y < 2 ^ w) (h1 : (y : ℚ) * 2 ^ g ≤ q)
    (h2 : q < (y + 1) * 2 ^ g) : y + 1 < 2 ^ w := by
  by_contra hc
  have he : y + 1 = 2 ^ w := by omega
  have he' : (y : ℚ) + 1 = 2 ^ w := by exact_mod_cast he
  refine hq ⟨g, ?_, ?_⟩
  · rw [← he']; simpa using h1
  · rw [← he']; exact h2

/-- A number between two neighbouring powers of two (exclusive) is none. -/
theorem ne_pow {y w : Nat} (h1 : 2 ^ (w - 1) ≤ y) (h2 : y + 1 < 2 ^ w) (hw : 0 < w) (g k : ℤ) :
    ((y : ℚ) + 1) * 2 ^ g ≠ 2 ^ k := by
  intro he
  have hp := two_zpow_pos g
  have a : (2 : ℚ) ^ (((w - 1 : Nat) : ℤ) + g) < 2 ^ k := by
    rw [← he, two_zpow_add, two_zpow_nat]
    exact mul_lt_mul_of_pos_right (by exact_mod_cast (by omega : 2 ^ (w - 1) < y + 1)) hp
  have b : (2 : ℚ) ^ k < 2 ^ ((w : ℤ) + g) := by
    rw [← he, two_zpow_add, two_zpow_nat]
    exact mul_lt_mul_of_pos_right (by exact_mod_cast h2) hp
  rw [zpow_lt_iff] at a b
  omega

/-- All cases of the conversion but those where the leading digits are all ones. -/
theorem toFloat_cases (h : Agrees I f) {N D : Nat} (hN : N ≠ 0) (hD : D ≠ 0) (hones : ¬ Ones f.width (N / D)) :
    ((N : ℚ) / D < 2 ^ (2 - f.bias - f.width : ℤ) → toFloat I ⟨N, D⟩ = .undefined) ∧
    ((2 : ℚ) ^ (f.bias + 1 : ℤ) ≤ N / D → toFloat I ⟨N, D⟩ = .done 0) ∧
    ((2 : ℚ) ^ (2 - f.bias - f.width : ℤ) ≤ N / D → (N : ℚ) / D < 2 ^ (f.bias + 1 : ℤ) →
      ∃ r, toFloat I ⟨N, D⟩ = .done r ∧
        (Down f (N / D) r ∨ (Up f (N / D) r ∧ magnitude f r ≤ N / D + N / D * 2 ^ (1 - f.width : ℤ)))) := by
  have hroom := h.room
  obtain ⟨y, g, hy1, hy2, hcase⟩ := toFloat_steps h hN hD
  have hy0 : 1 ≤ y ∨ (y : ℚ) * 2 ^ g = N / D := by
    rcases hcase with ⟨n, e, _, _, _, _, h5⟩ | ⟨_, h2, _⟩
    · rcases h5 with h5 | h5
      · exact Or.inr h5
      · left; have := Nat.two_pow_pos f.width; omega
    · left; have := Nat.two_pow_pos (f.width - 1); omega
  -- a power of two is on the same side of both
  have side : ∀ k : ℤ, ((2 : ℚ) ^ k ≤ N / D ↔ (2 : ℚ) ^ k ≤ y * 2 ^ g) := by
    intro k
    constructor
    · intro hk
      rcases hy0 with h0 | h0
      · rcases pow_grid k h0 g with h3 | h3
        · exact h3
        · linarith
      · rwa [h0]
    · intro hk; linarith
  rcases hcase with ⟨n, e, h1, h2, h3, h4, h5⟩ | ⟨hs, h1, h2, h3⟩
  · rw [h1]
    refine ⟨fun hq => makeFloat_undefined h h3 h2 ?_, fun hq => makeFloat_overflow h h2 ?_, fun hq hq' => ?_⟩
    · rw [h4]; linarith
    · rw [h4]; exact (side _).1 hq
    · obtain ⟨r, r1, r2⟩ := makeFloat_down h h2 (e := e) (by rw [h4]; exact (side _).1 hq) (by rw [h4]; linarith)
      refine ⟨r, r1, Or.inl ?_⟩
      rw [h4] at r2
      rcases h5 with h5 | h5
      · rwa [h5] at r2
      · exact down_grid h (Nat.le_trans (Nat.pow_le_pow_right (by norm_num) (by omega)) h5) hy1 hy2 r2
  · have hlt := not_ones hones h2 hy1 hy2
    rw [Nat.mod_eq_of_lt hlt] at h3
    have hyp : 2 ^ f.p ≤ y := Nat.le_trans (Nat.pow_le_pow_right (by norm_num) (by omega)) h1
    have hy1' : 1 ≤ y := Nat.le_trans (Nat.two_pow_pos _) hyp
    have below : ∀ k : ℤ, (N : ℚ) / D < 2 ^ k → ((y : ℚ) + 1) * 2 ^ g < 2 ^ k := by
      intro k hk
      rcases pow_grid k hy1' g with h4 | h4
      · linarith
      · exact lt_of_le_of_ne h4 (ne_pow h1 hlt (by omega) g k)
    have cast : ((y + 1 : Nat) : ℚ) = (y : ℚ) + 1 := by push_cast; rfl
    rw [h3]
    refine ⟨fun hq => makeFloat_undefined h (by omega) hlt ?_, fun hq => makeFloat_overflow h hlt ?_, fun hq hq' => ?_⟩
    · rw [cast]; exact below _ hq
    · rw [cast]; linarith
    · obtain ⟨r, r1, r2⟩ := makeFloat_down h hlt (e := g) (by rw [cast]; linarith) (by rw [cast]; exact below _ hq')
      refine ⟨r, r1, ?_⟩
      rw [cast] at r2
      rcases down_grid_up h hyp hs hy2 r2 with h4 | ⟨h4, h5⟩
      · exact Or.inl h4
      · refine Or.inr ⟨h4, ?_⟩
        rw [h5]
        have hsmall : (2 : ℚ) ^ g ≤ N / D * 2 ^ (1 - f.width : ℤ) := by
          rw [show (1 - f.width : ℤ) = -((f.width - 1 : Nat) : ℤ) by omega, zpow_neg, ← div_eq_mul_inv,
            le_div_iff₀ (two_zpow_pos _), mul_comm, two_zpow_nat]
          refine le_trans (mul_le_mul_of_nonneg_right ?_ (two_zpow_pos g).le) hy1
          exact_mod_cast h1
        linarith

/-- Numbers of the format do not start with that many ones. -/
theorem not_ones_of_plain (h : Agrees I f) {d : Nat} (hd : Plain f d) : ¬ Ones f.width (magnitude f d) := by
  rintro ⟨g, h1, h2⟩
  have hroom := h.room
  have hpw := Nat.two_pow_pos f.width
  have hc : (((2 ^ f.width - 1 : Nat) : ℚ)) = 2 ^ f.width - 1 := by
    rw [Nat.cast_sub (by omega)]; push_cast; rfl
  have hlow : 2 ^ f.p ≤ 2 ^ f.width - 1 := by
    have : 2 ^ (f.p + 1) ≤ 2 ^ f.width := Nat.pow_le_pow_right (by norm_num) (by omega)
    rw [pow_succ] at this
    have := Nat.two_pow_pos f.p
    omega
  obtain ⟨m, t, hm, he⟩ := magnitude_form h hd
  have hmag : magnitude f d = ((2 : ℚ) ^ f.width - 1) * 2 ^ g := by
    rcases magnitude_grid h hd hlow g with h3 | h3
    · rw [hc] at h3; exact le_antisymm h3 h1
    · rw [hc] at h3; linarith
  rw [he, ← hc] at hmag
  have hbig : 2 ^ (f.p + 2) ≤ 2 ^ f.width := Nat.pow_le_pow_right (by norm_num) hroom
  have hbig' : 2 ^ (f.p + 2) = 2 ^ (f.p + 1) * 2 := by rw [← pow_succ]
  have := Nat.two_pow_pos (f.p + 1)
  by_cases htg : g < t
  · obtain ⟨k, rfl⟩ : ∃ k : Nat, t = (k + 1 : Nat) + g := ⟨(t - g - 1).toNat, by omega⟩
    rw [two_zpow_add, ← mul_assoc, two_zpow_nat] at hmag
    have := mul_right_cancel₀ (two_zpow_ne g) hmag
    have h5 : m * 2 ^ (k + 1) = 2 ^ f.width - 1 := by exact_mod_cast this
    have h6 : m * 2 ^ (k + 1) = m * 2 ^ k * 2 := by rw [pow_succ]; ring
    have h7 : 2 ^ f.width = 2 ^ (f.width - 1) * 2 := by rw [← pow_succ]; congr 1; omega
    omega
  · obtain ⟨k, rfl⟩ : ∃ k : Nat, g = (k : Nat) + t := ⟨(g - t).toNat, by omega⟩
    rw [two_zpow_add, ← mul_assoc, two_zpow_nat] at hmag
    have := mul_right_cancel₀ (two_zpow_ne t) hmag
    have h5 : m = (2 ^ f.width - 1) * 2 ^ k := by exact_mod_cast this
    have h6 : 2 ^ f.width - 1 ≤ (2 ^ f.width - 1) * 2 ^ k := Nat.le_mul_of_pos_right _ (Nat.two_pow_pos k)
    omega

/-- A fraction worth a number of the format converts to that number. -/
theorem toFloat_exact (h : Agrees I f) {N D d : Nat} (hD : D ≠ 0) (hd : Plain f d) (h0 : d ≠ 0)
    (he : (N : ℚ) / D = magnitude f d) : toFloat I ⟨N, D⟩ = .done d := by
  have hpos := magnitude_pos_ge h hd h0
  have hN : N ≠ 0 := by
    intro hz; subst hz
    have := two_zpow_pos (-(Kof f : ℤ))
    simp at he; linarith
  have hK : (Kof f : ℤ) = f.p + f.bias - 1 := by unfold Kof; have := h.biasPos; omega
  have hr := h.room
  obtain ⟨r, r1, r2⟩ := (toFloat_cases h hN hD (by rw [he]; exact not_ones_of_plain h hd)).2.2
    (by rw [he]; exact le_trans (zpow_le_iff.2 (by omega)) hpos) (by rw [he]; exact magnitude_lt h hd)
  rw [r1]
  rcases r2 with r2 | r2
  · rw [down_unique h r2 (down_self hd he)]
  · have : Up f (N / D) d := ⟨hd, he.le, fun _ _ hle => by rwa [← he]⟩
    rw [up_unique h r2.1 this]

theorem ctz_odd {n : Nat} (h : n % 2 = 1) : ctz n = 0 := by
  rw [ctz]; split
  · omega
  · rfl

/-- An integer whose leading digits are all ones, and that has more, converts to zero. -/
theorem toFloat_ones (h : Agrees I f) {N c : Nat} (h1 : (2 ^ f.width - 1) * 2 ^ c < N) (h2 : N < 2 ^ f.width * 2 ^ c) :
    toFloat I ⟨N, 1⟩ = .done 0 := by
  have hw : 0 < f.width := by have := h.room; omega
  have hpw := Nat.two_pow_pos f.width
  have hN : N ≠ 0 := by omega
  obtain ⟨n1, n2⟩ := ctz_spec N
  have n3 := n2 hN
  have c1 : ctz 1 = 0 := ctz_odd rfl
  unfold toFloat
  dsimp only
  rw [if_neg (by norm_num), h.width, c1]
  generalize ctz N = z at *
  generalize N >>> z = n at *
  simp only [Nat.shiftRight_zero, Nat.cast_zero, sub_zero]
  rw [quotLoop, if_neg (by simp [Nat.mod_one]), Nat.div_one]
  dsimp only
  rw [ctz_odd n3, Nat.shiftRight_zero]
  -- the length
  have hzc : z < c := by
    by_contra hc
    obtain ⟨k, rfl⟩ : ∃ k, z = k + c := ⟨z - c, by omega⟩
    rw [pow_add, ← Nat.mul_assoc] at n1
    have a := Nat.lt_of_mul_lt_mul_right (n1 ▸ h1 : (2 ^ f.width - 1) * 2 ^ c < n * 2 ^ k * 2 ^ c)
    have b := Nat.lt_of_mul_lt_mul_right (n1 ▸ h2 : n * 2 ^ k * 2 ^ c < 2 ^ f.width * 2 ^ c)
    omega
  obtain ⟨t, rfl⟩ : ∃ t, c = t + z := ⟨c - z, by omega⟩
  rw [pow_add, ← Nat.mul_assoc] at h1 h2
  have a : (2 ^ f.width - 1) * 2 ^ t < n := by
    apply Nat.lt_of_mul_lt_mul_right (a := 2 ^ z)
    rw [← n1]; exact h1
  have b : n < 2 ^ f.width * 2 ^ t := by
    apply Nat.lt_of_mul_lt_mul_right (a := 2 ^ z)
    rw [← n1]; exact h2
  have hpt := Nat.two_pow_pos t
  have hdiv : n / 2 ^ t = 2 ^ f.width - 1 := by
    apply Nat.le_antisymm
    · have := (Nat.div_lt_iff_lt_mul hpt).2 b
      omega
    · exact (Nat.le_div_iff_mul_le hpt).2 a.le
  have hbit : bitnum n = f.width + t := by
    have hn0 : n ≠ 0 := by omega
    unfold bitnum
    rw [if_neg hn0, log2_eq (l := f.width + t - 1)]
    · omega
    · refine Nat.le_trans ?_ a.le
      rw [show f.width + t - 1 = (f.width - 1) + t by omega, pow_add]
      apply Nat.mul_le_mul_right
      have : 2 ^ f.width = 2 ^ (f.width - 1) * 2 := by rw [← pow_succ]; congr 1; omega
      have := Nat.two_pow_pos (f.width - 1)
      omega
    · rw [show f.width + t - 1 + 1 = f.width + t by omega, pow_add]; exact b
  have hd : (bitnum n : ℤ) - f.width = t := by omega
  rw [hd, if_pos (by omega), if_pos (by omega), Int.toNat_natCast, Nat.shiftRight_eq_div_pow, hdiv,
    show 2 ^ f.width - 1 + 1 = 2 ^ f.width by omega, Nat.mod_self, makeFloat_zero h, if_neg]
  have := h.biasPos
  omega

theorem toFloat_zero (h : Agrees I f) {D : Nat} (hD : D ≠ 0) :
    toFloat I ⟨0, D⟩ = makeFloat I 0 (-(ctz D : ℤ)) := by
  have c0 : ctz 0 = 0 := by rw [ctz]; simp
  unfold toFloat
  rw [if_neg hD]
  dsimp only
  rw [c0, Nat.zero_shiftRight, quotLoop, if_neg (by simp)]
  dsimp only
  rw [Nat.zero_div, c0, Nat.zero_shiftRight, bitnum_zero]
  have hw : 0 < f.width := by have := h.room; omega
  rw [h.width, if_neg (by omega), if_neg (by omega), Nat.zero_mod]
  congr 1
  push_cast; ring

end ELC.Float
