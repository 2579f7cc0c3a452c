import Verif.Uniform.Lemmas
/-!
Properties C158 and C159: random floating point numbers.

`Float.Spec.magnitude f d` is the number that the bytes `d` of the format `f` denote, `Float.Spec.Plain f d` says that they are those
of a finite number that is not negative, and `Spec.value` adds a sign.  `IsNative` are `float`, `double` and `float128_t`.
-/
namespace ELC.Uniform
open ELC.Float
open ELC.Float.Spec

variable {I : Info} {f : Format}

theorem native_width (h : IsNative I f) : I.width < f.bias ∧ f.p + 3 ≤ I.width := by
  rcases h with ⟨rfl, rfl⟩ | ⟨rfl, rfl⟩ | ⟨rfl, rfl⟩ <;> decide +kernel

theorem exclusiveBy_spec (h : Agrees I f) {w n : Nat} (hw : w < f.bias) (hp : f.p + 2 ≤ w) (hn : n < 2 ^ w) :
    Plain f (exclusiveBy I (divNum I w) n) ∧
    magnitude f (exclusiveBy I (divNum I w) n) = magnitude f (ofNat I n) / 2 ^ w ∧
    magnitude f (exclusiveBy I (divNum I w) n) ≤ 1 ∧
    (magnitude f (exclusiveBy I (divNum I w) n) < 1 ↔ n < 2 ^ w - 2 ^ (w - f.p - 2)) := by
  obtain ⟨h1, h2⟩ := fdiv_pow h hw hn.le
  obtain ⟨p1, p2, _⟩ := ofNat_pow h hw
  have ho : (0 : ℚ) < one I := by exact_mod_cast one_pos h
  have hw2 : (0 : ℚ) < 2 ^ w := by positivity
  have hle : ofNat I n ≤ ofNat I (2 ^ w) := nearest_le h Nat.one_pos (by rw [p1, Nat.one_mul]; exact Nat.mul_le_mul_right _ hn.le)
  have hpl := plain_of_lt h h2
  have hpn := plain_of_lt h (Nat.lt_of_le_of_lt hle p2)
  have hmag : magnitude f (exclusiveBy I (divNum I w) n) = magnitude f (ofNat I n) / 2 ^ w := by
    show magnitude f (fdiv I (ofNat I n) (ofNat I (2 ^ w))) = _
    rw [magnitude_one h _ hpl.1, magnitude_one h _ hpn.1, ← h1]
    push_cast
    field_simp
  have hmag1 : magnitude f (ofNat I (2 ^ w)) = 2 ^ w := by
    rw [magnitude_one h _ (plain_of_lt h p2).1, p1]
    push_cast
    field_simp
  refine ⟨hpl, hmag, ?_, ?_⟩
  · rw [hmag, div_le_one hw2, ← hmag1, magnitude_le_magnitude h hpn.1 (plain_of_lt h p2).1]
    exact hle
  · rw [hmag, div_lt_one hw2, ← ofNat_lt_iff h hw hp hn.le, ← hmag1, ← not_le,
      magnitude_le_magnitude h (plain_of_lt h p2).1 hpn.1, not_le]

/-! ### C158 -/

/-- C158, the part that holds of `between_0_and_1_exclusive`: a finite number from 0 to 1, the draw rounded and scaled. -/
theorem exclusive_partial (h : IsNative I f) {rnd : Nat} (hr : rnd < 2 ^ I.width) :
    Plain f (exclusive01 I rnd) ∧ magnitude f (exclusive01 I rnd) ≤ 1 ∧
    ∃ d, Rounded f rnd d ∧ magnitude f (exclusive01 I rnd) = magnitude f d / 2 ^ I.width := by
  obtain ⟨w1, w2⟩ := native_width h
  obtain ⟨h1, h2, h3, _⟩ := exclusiveBy_spec h.agrees w1 (by omega) hr
  refine ⟨h1, h3, ofNat I rnd, ?_, h2⟩
  obtain ⟨p1, p2, _⟩ := ofNat_pow h.agrees w1
  have hle : nearest I (rnd * one I) 1 ≤ ofNat I (2 ^ I.width) :=
    nearest_le h.agrees Nat.one_pos (by rw [p1, Nat.one_mul]; exact Nat.mul_le_mul_right _ hr.le)
  have := nearest_rounded h.agrees (x := rnd * one I) (y := 1) Nat.one_pos (Nat.lt_of_le_of_lt hle p2)
  have ho : (one I : ℚ) ≠ 0 := by
    have := one_pos h.agrees
    positivity
  have e : ((rnd * one I : Nat) : ℚ) / (1 : Nat) * 2 ^ (-(Kof f : ℤ)) = rnd := by
    have e1 : (one I : ℚ) = 2 ^ Kof f := by rw [one_eq h.agrees]; push_cast; rfl
    rw [zpow_neg, zpow_natCast]
    push_cast
    rw [e1]
    field_simp
  rw [e] at this
  exact this

/-- C158, exactly when the number is below 1. -/
theorem exclusive_characterised (h : IsNative I f) {rnd : Nat} (hr : rnd < 2 ^ I.width) :
    magnitude f (exclusive01 I rnd) < 1 ↔ rnd < 2 ^ I.width - 2 ^ (I.width - f.p - 2) := by
  obtain ⟨w1, w2⟩ := native_width h
  exact (exclusiveBy_spec h.agrees w1 (by omega) hr).2.2.2

example : exclusive01 float64 (2 ^ 63) = 0x3FE0000000000000 := by decide +kernel

/-- C158 is false of the program: `between_0_and_1_exclusive` gives 1 for the greatest draw, of every type. -/
theorem exclusive_refuted (h : IsNative I f) : magnitude f (exclusive01 I (2 ^ I.width - 1)) = 1 := by
  have hp : 2 ^ I.width - 1 < 2 ^ I.width := by
    have := Nat.two_pow_pos I.width
    omega
  have h1 := exclusive_characterised h hp
  have h2 := (exclusive_partial h hp).2.1
  have h3 : 1 ≤ 2 ^ (I.width - f.p - 2) := Nat.one_le_two_pow
  have h4 : ¬ (2 ^ I.width - 1 < 2 ^ I.width - 2 ^ (I.width - f.p - 2)) := by omega
  rw [← h1] at h4
  exact le_antisymm h2 (not_lt.1 h4)

/-- What becomes of it if the divisor that the compiler has computed is any number below the power of two: the greatest draw
gives a number above 1. -/
theorem exclusive_divisor (h : IsNative I f) {div : Nat} (h0 : 0 < div) (hd : div < divNum I I.width)
    (hr : Plain f (exclusiveBy I div (2 ^ I.width - 1))) : 1 < magnitude f (exclusiveBy I div (2 ^ I.width - 1)) := by
  obtain ⟨w1, w2⟩ := native_width h
  have ha := h.agrees
  obtain ⟨p1, p2, p3⟩ := ofNat_pow ha w1
  obtain ⟨b1, b2, b3⟩ := units_before ha w1
  obtain ⟨q1, q2, q3⟩ := ofNat_pow ha (w := 0) (by omega)
  rw [pow_zero, Nat.one_mul] at q1
  have hK := kof_pos ha
  have hpw := Nat.two_pow_pos I.width
  have hN : ofNat I (2 ^ I.width - 1) = ofNat I (2 ^ I.width) := by
    have hle : ofNat I (2 ^ I.width - 1) ≤ ofNat I (2 ^ I.width) :=
      nearest_le ha Nat.one_pos (by rw [p1, Nat.one_mul]; exact Nat.mul_le_mul_right _ (by omega))
    have h3 : 1 ≤ 2 ^ (I.width - f.p - 2) := Nat.one_le_two_pow
    have := (ofNat_lt_iff ha w1 (by omega) (n := 2 ^ I.width - 1) (by omega)).not.2 (by omega)
    omega
  have hdiv : units f.p div ≤ units f.p (ofNat I (2 ^ I.width) - 1) := by
    apply units_le
    unfold divNum at hd
    omega
  have hd0 : 0 < units f.p div := units_pos (by omega)
  unfold exclusiveBy at hr ⊢
  rw [hN] at hr ⊢
  unfold fdiv at hr ⊢
  rw [ha.bit, p1] at hr ⊢
  rw [pow_zero] at q2 q3
  have hinf := lt_of_plain ha hr
  have hone : magnitude f (ofNat I 1) = 1 := by
    have ho := one_pos ha
    rw [magnitude_one ha _ (plain_of_lt ha q2).1, q1]
    field_simp
  rw [← hone, ← not_le, magnitude_le_magnitude ha hr.1 (plain_of_lt ha q2).1, not_le]
  by_contra hc
  obtain ⟨r, c1, c2, c3⟩ := nearest_cases ha hd0 hinf
  have hpos1 : 0 < 2 ^ (I.width + Kof f - f.p - 1) := Nat.two_pow_pos _
  -- the quotient is above one
  have habove : units f.p div * one I < 2 ^ I.width * one I * one I := by
    apply Nat.mul_lt_mul_of_pos_right _ (one_pos ha)
    omega
  have hr1 : ofNat I 1 ≤ r := by
    by_contra hcon
    have h5 : units f.p (r + 1) ≤ one I := by rw [← q1]; exact units_le (by omega)
    have := Nat.mul_le_mul_left (units f.p div) h5
    omega
  rcases c3 with ⟨d1, d2, _⟩ | ⟨d1, _, _⟩
  · have hre : r = ofNat I 1 := by omega
    have hnext : units f.p (ofNat I 1 + 1) = one I + 2 ^ (Kof f - f.p) := by
      rw [units_succ, q1]
      congr 2
      rw [q3, Nat.mul_div_cancel _ (Nat.two_pow_pos _)]
      omega
    rw [hre, hnext, q1] at d2
    -- all as powers of two
    have e1 : one I = 2 ^ (f.p + 1) * 2 ^ (Kof f - f.p - 1) := by
      rw [one_eq ha, ← pow_add]; congr 1; omega
    have e2 : 2 ^ (Kof f - f.p) = 2 * 2 ^ (Kof f - f.p - 1) := by
      rw [← pow_succ']; congr 1; omega
    have e3 : 2 ^ (I.width + Kof f - f.p - 1) = 2 ^ I.width * 2 ^ (Kof f - f.p - 1) := by
      rw [← pow_add]; congr 1; omega
    rw [e1, e2] at d2
    rw [e1, e3] at b1
    have hX : 0 < 2 ^ (Kof f - f.p - 1) := Nat.two_pow_pos _
    generalize 2 ^ (Kof f - f.p - 1) = X at *
    generalize 2 ^ I.width = W at *
    have hP : 0 < 2 ^ (f.p + 1) := Nat.two_pow_pos _
    generalize 2 ^ (f.p + 1) = P at *
    generalize units f.p (ofNat I W - 1) = V at *
    generalize units f.p div = y at *
    -- y ≤ V, V + W X = W P X; 2 W P X P X ≤ y (2 P X + 2 X)
    have hd2 : 2 * (W * (P * X) * (P * X)) ≤ V * (P * X + (P * X + 2 * X)) :=
      Nat.le_trans d2 (Nat.mul_le_mul_right _ hdiv)
    have hV : V * (P * X + (P * X + 2 * X)) + W * X * (P * X + (P * X + 2 * X)) = W * (P * X) * (P * X + (P * X + 2 * X)) := by
      rw [← Nat.add_mul, b1]
    have e4 : W * (P * X) * (P * X + (P * X + 2 * X)) = 2 * (W * (P * X) * (P * X)) + 2 * (W * P * X * X) := by ring
    have e5 : W * X * (P * X + (P * X + 2 * X)) = 2 * (W * P * X * X) + 2 * (W * X * X) := by ring
    have e6 : 0 < W * X * X := Nat.mul_pos (Nat.mul_pos hpw hX) hX
    omega
  · omega

/-- A divisor to which this applies: the number before 2^64. -/
example : exclusiveBy float64 (divNum float64 64 - 1) (2 ^ 64 - 1) = 0x3FF0000000000001 ∧
    Plain binary64 (exclusiveBy float64 (divNum float64 64 - 1) (2 ^ 64 - 1)) := by decide +kernel

/-- C158: `between_0_and_1_inclusive` gives a finite number from 0 to 1. -/
theorem inclusive_correct (h : IsNative I f) {g : Nat → Nat} (hg : ∀ n, g n < 2 ^ I.width) {fuel pos v next : Nat}
    (hr : inclusive01 I g fuel pos = some (v, next)) : Plain f v ∧ magnitude f v ≤ 1 := by
  obtain ⟨w1, w2⟩ := native_width h
  induction fuel generalizing pos with
  | zero => cases hr
  | succ fuel ih =>
    unfold inclusive01 at hr
    dsimp only at hr
    by_cases ho : g pos % 2 = 1
    · rw [if_pos ho] at hr
      by_cases hz : g pos / 2 = 0
      · rw [if_pos hz, Option.some.injEq, Prod.mk.injEq] at hr
        obtain ⟨q1, q2, _⟩ := ofNat_pow h.agrees (w := 0) (by omega)
        rw [pow_zero] at q1 q2
        rw [← hr.1]
        refine ⟨plain_of_lt h.agrees q2, ?_⟩
        have hop := one_pos h.agrees
        rw [magnitude_one h.agrees _ (plain_of_lt h.agrees q2).1, q1, Nat.one_mul]
        rw [div_self (by positivity)]
      · rw [if_neg hz] at hr
        exact ih hr
    · rw [if_neg ho, Option.some.injEq, Prod.mk.injEq] at hr
      rw [← hr.1]
      have hlt : g pos / 2 < 2 ^ (I.width - 1) := by
        have := hg pos
        have e : 2 ^ I.width = 2 * 2 ^ (I.width - 1) := by rw [← pow_succ']; congr 1; omega
        omega
      obtain ⟨h1, h2, h3, h4⟩ := exclusiveBy_spec h.agrees (w := I.width - 1) (by omega) (by omega) hlt
      exact ⟨h1, h3⟩

/-- C158: it returns exactly if a draw comes that is even or 1; both ends of [0,1] are reached. -/
theorem inclusive_returns (I : Info) (g : Nat → Nat) (pos : Nat) :
    (∃ fuel r, inclusive01 I g fuel pos = some r) ↔ ∃ n, pos ≤ n ∧ (g n % 2 = 0 ∨ g n = 1) := by
  constructor
  · rintro ⟨fuel, r, hr⟩
    induction fuel generalizing pos with
    | zero => cases hr
    | succ fuel ih =>
      unfold inclusive01 at hr
      dsimp only at hr
      by_cases ho : g pos % 2 = 1
      · rw [if_pos ho] at hr
        by_cases hz : g pos / 2 = 0
        · exact ⟨pos, Nat.le_refl _, by omega⟩
        · rw [if_neg hz] at hr
          obtain ⟨n, h1, h2⟩ := ih _ hr
          exact ⟨n, by omega, h2⟩
      · exact ⟨pos, Nat.le_refl _, by omega⟩
  · rintro ⟨n, hn, hg⟩
    obtain ⟨k, rfl⟩ : ∃ k, n = pos + k := ⟨n - pos, by omega⟩
    induction k generalizing pos with
    | zero =>
      refine ⟨1, ?_⟩
      rw [Nat.add_zero] at hg
      unfold inclusive01
      dsimp only
      by_cases ho : g pos % 2 = 1
      · rw [if_pos ho, if_pos (by omega)]
        exact ⟨_, rfl⟩
      · rw [if_neg ho]
        exact ⟨_, rfl⟩
    | succ k ih =>
      by_cases ho : g pos % 2 = 1
      · by_cases hz : g pos / 2 = 0
        · refine ⟨1, ?_⟩
          unfold inclusive01
          dsimp only
          rw [if_pos ho, if_pos hz]
          exact ⟨_, rfl⟩
        · obtain ⟨fuel, r, hr⟩ := ih (pos + 1) (by omega) (by rwa [show pos + 1 + k = pos + (k + 1) by omega])
          refine ⟨fuel + 1, r, ?_⟩
          unfold inclusive01
          dsimp only
          rw [if_pos ho, if_neg hz]
          exact hr
      · refine ⟨1, ?_⟩
        unfold inclusive01
        dsimp only
        rw [if_neg ho]
        exact ⟨_, rfl⟩

example : inclusive01 float32 (fun n => if n = 0 then 7 else 1) 5 0 = some (0x3F800000, 2) ∧
    inclusive01 float32 (fun n => if n = 0 then 7 else 0) 5 0 = some (0, 2) := by decide +kernel

/-! ### C159 -/

/-- The lower of two numbers, as `between` takes it. -/
theorem between_swap (I : Info) (a b : Signed) (u : Nat) (hne : a.units I ≠ b.units I) : between I a b u = between I b a u := by
  unfold between
  by_cases h : b.units I < a.units I
  · rw [if_pos h, if_pos h, if_neg (by omega), if_neg (by omega)]
  · rw [if_neg h, if_neg h, if_pos (by omega), if_pos (by omega)]

/-- C159, the part that holds: if the difference of the bounds is a number of the format, every result is between them. -/
theorem between_partial (h : IsNative I f) {a b : Signed} (ha : Plain f a.mag) (hb : Plain f b.mag)
    (hab : Spec.value f a.neg a.mag ≤ Spec.value f b.neg b.mag)
    {e : Nat} (he : Plain f e) (hd : magnitude f e = Spec.value f b.neg b.mag - Spec.value f a.neg a.mag)
    {u : Nat} (hu : Plain f u) (hu1 : magnitude f u ≤ 1) :
    ∃ r, between I a b u = some r ∧ Plain f r.mag ∧ Spec.value f a.neg a.mag ≤ Spec.value f r.neg r.mag ∧
      Spec.value f r.neg r.mag ≤ Spec.value f b.neg b.mag := by
  have hg := h.agrees
  have ho : (0 : ℚ) < one I := by exact_mod_cast one_pos hg
  have conv : ∀ {x y : Int}, (x : ℚ) / one I ≤ (y : ℚ) / one I ↔ x ≤ y := by
    intro x y
    rw [div_le_div_iff_of_pos_right ho]
    exact_mod_cast Iff.rfl
  rw [value_units hg a ha, value_units hg b hb] at hab hd ⊢
  rw [conv] at hab
  rw [magnitude_one hg _ he.1, ← sub_div, div_left_inj' ho.ne'] at hd
  have hd' : (units f.p e : Int) = b.units I - a.units I := by exact_mod_cast hd
  rw [magnitude_one hg _ hu.1, div_le_one ho] at hu1
  have hu' : units f.p u ≤ one I := by exact_mod_cast hu1
  have hei := lt_of_plain hg he
  have hdiff : diff I a b = e := by
    unfold diff
    have : (b.units I - a.units I).natAbs = 1 * units f.p e := by omega
    rw [this]
    exact nearest_exact hg Nat.one_pos hei.le
  have hprod : fmul I u e ≤ e := by
    unfold fmul
    rw [hg.bit]
    apply nearest_le hg (one_pos hg)
    exact Nat.mul_le_mul_right _ hu'
  have hpi : ¬ infinity I ≤ fmul I u e := by omega
  have hpu := units_le (p := f.p) hprod
  have hs1 : a.units I ≤ a.units I + (units I.bit (fmul I u e) : Int) := by omega
  have hs2 : a.units I + (units I.bit (fmul I u e) : Int) ≤ b.units I := by
    rw [hg.bit]
    omega
  have hfin := round_finite hg ha hb hs1 hs2
  refine ⟨round I (a.units I + (units I.bit (fmul I u e) : Int)), ?_, hfin, ?_, ?_⟩
  · unfold between
    rw [if_neg (by omega), if_neg (by omega)]
    dsimp only
    rw [hdiff]
    unfold scaled
    rw [if_neg (by omega), Option.map_some]
    unfold shifted
    rw [if_neg hpi]
  · rw [value_units hg _ hfin, conv]
    exact round_ge hg ha hs1
  · rw [value_units hg _ hfin, conv]
    exact round_le hg hb hs2

/-- Bounds −1 and 2 of `double`, which meet this; u = 1/2. -/
example : between float64 ⟨true, 0x3FF0000000000000⟩ ⟨false, 0x4000000000000000⟩ 0x3FE0000000000000 =
    some ⟨false, 0x3FE0000000000000⟩ ∧ Plain binary64 0x4008000000000000 := by decide +kernel

/-- C159: no finite result is below the lower bound, whatever the bounds. -/
theorem between_lower (h : IsNative I f) {a b : Signed} (ha : Plain f a.mag) (hb : Plain f b.mag)
    (hab : Spec.value f a.neg a.mag ≤ Spec.value f b.neg b.mag) {u : Nat} {r : Signed}
    (hr : between I a b u = some r) (hf : Plain f r.mag) : Spec.value f a.neg a.mag ≤ Spec.value f r.neg r.mag := by
  have hg := h.agrees
  have ho : (0 : ℚ) < one I := by exact_mod_cast one_pos hg
  have conv : ∀ {x y : Int}, (x : ℚ) / one I ≤ (y : ℚ) / one I ↔ x ≤ y := by
    intro x y
    rw [div_le_div_iff_of_pos_right ho]
    exact_mod_cast Iff.rfl
  rw [value_units hg a ha, value_units hg b hb, conv] at hab
  rw [value_units hg a ha, value_units hg r hf, conv]
  unfold between at hr
  rw [if_neg (by omega), if_neg (by omega)] at hr
  dsimp only at hr
  obtain ⟨p, _, hp2⟩ := Option.map_eq_some_iff.1 hr
  unfold shifted at hp2
  by_cases hpi : infinity I ≤ p
  · rw [if_pos hpi] at hp2
    have := lt_of_plain hg hf
    rw [← hp2] at this
    exact absurd this (Nat.lt_irrefl _)
  · rw [if_neg hpi] at hp2
    rw [← hp2]
    exact round_ge hg ha (by omega)

/-- C159, bounds that are too far apart: no result is a number, whatever is drawn. -/
theorem between_wide (I : Info) {a b : Signed} (hab : a.units I ≤ b.units I) (hw : infinity I ≤ diff I a b) (u : Nat) :
    between I a b u = if u = 0 then none else some ⟨false, infinity I⟩ := by
  unfold between
  rw [if_neg (by omega), if_neg (by omega)]
  dsimp only
  unfold scaled
  rw [if_pos hw]
  by_cases h : u = 0
  · rw [if_pos h, if_pos h]
    rfl
  · rw [if_neg h, if_neg h, Option.map_some]
    unfold shifted
    rw [if_pos (Nat.le_refl _)]

/-- C159 is false of the program, for `double`: the range of all numbers gives NaN or infinity only; `inclusive` between −2^54 and
3 can give 4; `exclusive` between 1 and 2 can give 2, for a fraction below 1. -/
theorem between_refuted :
    (∀ u, between float64 ⟨true, 0x7FEFFFFFFFFFFFFF⟩ ⟨false, 0x7FEFFFFFFFFFFFFF⟩ u =
      if u = 0 then none else some ⟨false, 0x7FF0000000000000⟩) ∧
    between float64 ⟨true, 0x4350000000000000⟩ ⟨false, 0x4008000000000000⟩ (exclusive01 float64 (2 ^ 64 - 1)) =
      some ⟨false, 0x4010000000000000⟩ ∧
    (exclusive01 float64 (2 ^ 64 - 2048) = 0x3FEFFFFFFFFFFFFF ∧
      between float64 ⟨false, 0x3FF0000000000000⟩ ⟨false, 0x4000000000000000⟩ (exclusive01 float64 (2 ^ 64 - 2048)) =
      some ⟨false, 0x4000000000000000⟩) := by
  refine ⟨fun u => ?_, by decide +kernel, by decide +kernel⟩
  have := between_wide float64 (a := ⟨true, 0x7FEFFFFFFFFFFFFF⟩) (b := ⟨false, 0x7FEFFFFFFFFFFFFF⟩) (by decide +kernel) (by decide +kernel) u
  rw [this]
  rfl

end ELC.Uniform
