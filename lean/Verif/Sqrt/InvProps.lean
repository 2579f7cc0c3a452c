import Verif.Sqrt.Invends
import Verif.Sqrt.Props
/-!
Inverse square roots of native numbers, C188 and C189.

`magnitude f d` is the value of the number with bytes `d` (`Verif.Float.Spec`), `Real.sqrt` the root of a real number: a number `r` is the
inverse root of `v` when `r·√v = 1`.
-/
namespace ELC.Sqrt

open ELC.Float ELC.Float.Spec

variable {I : Info} {f : Format} {magic : Nat}

/-- The native types with their magic numbers, float_info.hpp:105, 135, 166. -/
def WithMagic (I : Info) (f : Format) (magic : Nat) : Prop :=
  (I = float32 ∧ f = binary32 ∧ magic = magic32) ∨ (I = float64 ∧ f = binary64 ∧ magic = magic64) ∨
    (I = float128 ∧ f = binary128 ∧ magic = magic128)

theorem WithMagic.native (hm : WithMagic I f magic) : IsNative I f := by
  rcases hm with ⟨rfl, rfl, _⟩ | ⟨rfl, rfl, _⟩ | ⟨rfl, rfl, _⟩
  · exact .inl ⟨rfl, rfl⟩
  · exact .inr (.inl ⟨rfl, rfl⟩)
  · exact .inr (.inr ⟨rfl, rfl⟩)

theorem WithMagic.number (hm : WithMagic I f magic) : Magic f magic := by
  rcases hm with ⟨rfl, rfl, rfl⟩ | ⟨rfl, rfl, rfl⟩ | ⟨rfl, rfl, rfl⟩ <;>
    exact ⟨by decide +kernel, by decide +kernel, by decide +kernel, by decide +kernel⟩

theorem WithMagic.bits (hm : WithMagic I f magic) : f.p ≤ 112 := by
  rcases hm with ⟨rfl, rfl, rfl⟩ | ⟨rfl, rfl, rfl⟩ | ⟨rfl, rfl, rfl⟩ <;> decide

/-- A number of the least normal size has a field. -/
theorem normal_bytes (h : Agrees I f) {v : Nat} (hv : Plain f v) (hv1 : 2 ^ (1 - f.bias : ℤ) ≤ magnitude f v) : 2 ^ f.p ≤ v := by
  by_contra hc
  have hd : v / 2 ^ f.p = 0 := Nat.div_eq_of_lt (by omega)
  have hu : units f.p v = v := by unfold units; rw [hd, if_pos rfl, Nat.mod_eq_of_lt (by omega)]
  rw [magnitude_plain h hv.1, hu] at hv1
  have h1 : (v : ℚ) < 2 ^ (f.p : ℤ) := by
    have : v < 2 ^ f.p := by omega
    rw [zpow_natCast]; exact_mod_cast this
  have h2 : (v : ℚ) * 2 ^ (-(Kof f : ℤ)) < 2 ^ (f.p : ℤ) * 2 ^ (-(Kof f : ℤ)) := mul_lt_mul_of_pos_right h1 (by positivity)
  rw [← zpow_add₀ (by norm_num)] at h2
  have h3 : (f.p : ℤ) + -(Kof f : ℤ) = 1 - f.bias := by unfold Kof; have := h.biasPos; omega
  rw [h3] at h2
  exact absurd hv1 (not_le.2 h2)

theorem root_pos (h : Agrees I f) {v : Nat} (hv : v < infinity I) (hn : 2 ^ f.p ≤ v) :
    0 < Real.sqrt (magnitude f v : ℝ) ∧ Real.sqrt (magnitude f v : ℝ) * Real.sqrt (magnitude f v : ℝ) = magnitude f v := by
  obtain ⟨v1, _⟩ := normal_range h hv hn
  have hB := big_bias h
  have h0 : (0 : ℝ) < magnitude f v := lt_of_lt_of_le (by positivity) v1
  exact ⟨Real.sqrt_pos.2 h0, Real.mul_self_sqrt h0.le⟩

/-! ### C188: the quick inverse root -/

theorem quick_from (h : Agrees I f) (hm : Magic f magic) {v : Nat} (hv : v < infinity I) (hn : 2 ^ f.p ≤ v) :
    quickInvsqrt I magic v < infinity I ∧ |(magnitude f (quickInvsqrt I magic v) : ℝ) * Real.sqrt (magnitude f v : ℝ) - 1| ≤ 0.036 := by
  obtain ⟨h1, h2, h3, h4⟩ := quick_inv h hm hv hn
  obtain ⟨s0, s1⟩ := root_pos h hv hn
  refine ⟨h2, ?_⟩
  have hO : (0 : ℝ) < one I := by exact_mod_cast one_pos h
  rw [← magR h h2.le, ← magR h hv.le, ← s1] at h3 h4
  have hy0 : (0 : ℝ) ≤ magnitude f (quickInvsqrt I magic v) := by exact_mod_cast mag_nonneg h h2.le
  generalize Real.sqrt (magnitude f v : ℝ) = s at *
  generalize (magnitude f (quickInvsqrt I magic v) : ℝ) = y at *
  have hO3 : (0 : ℝ) < (one I : ℝ) ^ 3 := by positivity
  have e : s * s * (one I : ℝ) * (y * one I) ^ 2 = (y * s) * (y * s) * (one I : ℝ) ^ 3 := by ring
  rw [e] at h3 h4
  have k3 := le_of_mul_le_mul_right h3 hO3
  have k4 := le_of_mul_le_mul_right h4 hO3
  have hw : 0 ≤ y * s := mul_nonneg hy0 s0.le
  generalize y * s = w at *
  rw [abs_le]
  constructor
  · by_contra hc
    have : w * w < 0.964 * 0.964 := mul_self_lt_mul_self hw (by norm_num at *; linarith)
    norm_num at *
    linarith
  · by_contra hc
    have : 1.036 * 1.036 < w * w := mul_self_lt_mul_self (by norm_num) (by norm_num at *; linarith)
    norm_num at *
    linarith

/-- C188: for every positive normal number the quick inverse root is finite and within 3.6% of the inverse root.  `_partial`: not so below the
least normal number. -/
theorem quick_invsqrt_close_partial (hm : WithMagic I f magic) {v : Nat} (hv : Plain f v) (hv1 : 2 ^ (1 - f.bias : ℤ) ≤ magnitude f v) :
    Plain f (quickInvsqrt I magic v) ∧
      |(magnitude f (quickInvsqrt I magic v) : ℝ) * Real.sqrt (magnitude f v : ℝ) - 1| ≤ 36 / 1000 := by
  have h := hm.native.agrees
  obtain ⟨h1, h2⟩ := quick_from h hm.number ((plain_lt h).1 hv) (normal_bytes h hv hv1)
  exact ⟨(plain_lt h).2 h1, by norm_num at h2 ⊢; exact h2⟩

/-- The quick inverse root of 4 in `float`. -/
example : quickInvsqrt float32 magic32 0x40800000 = 0x3EF75A86 ∧ Plain binary32 0x40800000 ∧ (2 : ℚ) ^ (1 - binary32.bias : ℤ) ≤ magnitude binary32 0x40800000 := by
  refine ⟨by decide, ?_, ?_⟩
  · norm_num [Plain, Spec.Finite, Spec.field, binary32]
  · norm_num [magnitude, Spec.field, fraction, binary32]

/-- C188: the least positive `float` times the square of its quick inverse root is below a thousandth. -/
theorem quick_invsqrt_small_refuted : magnitude binary32 1 * magnitude binary32 (quickInvsqrt float32 magic32 1) ^ 2 < 1 / 1000 := by
  rw [show quickInvsqrt float32 magic32 1 = 1597463173 by decide]
  norm_num [magnitude, Spec.field, fraction, binary32]

/-! ### C189: the inverse root -/

/-- C189: whatever the inverse root of a normal number returns is a finite number.  With `E` the allowed last change, it is off in proportion by
at most `9·(E·√v)²` and two and a half of the smallest steps of the type, and by at most 0.21% in any case.  `_partial`: it may not return,
see `invsqrt_ends_refuted`. -/
theorem invsqrt_close_partial (hm : WithMagic I f magic) {v eps saver fuel : Nat} {o : Option Nat} (hv : Plain f v)
    (hv1 : 2 ^ (1 - f.bias : ℤ) ≤ magnitude f v) (he : Plain f eps) (he0 : 0 < eps) (hsv : eps < saver)
    (hs : invsqrt I magic fuel v eps saver = some o) :
    ∃ r, o = some r ∧ Plain f r ∧ |(magnitude f r : ℝ) * Real.sqrt (magnitude f v : ℝ) - 1| ≤ 21 / 10000 ∧
      |(magnitude f r : ℝ) * Real.sqrt (magnitude f v : ℝ) - 1| ≤
        9 * (magnitude f eps * Real.sqrt (magnitude f v : ℝ)) ^ 2 + 5 / 2 * (1 / 2 ^ f.p) := by
  have h := hm.native.agrees
  have hlt := (plain_lt h).1 hv
  have hn := normal_bytes h hv hv1
  obtain ⟨h1, h2⟩ := quick_from h hm.number hlt hn
  obtain ⟨s0, s1⟩ := root_pos h hlt hn
  unfold invsqrt at hs
  rw [if_neg (by omega)] at hs
  obtain ⟨r, rfl, r1, r2, r3⟩ := inv_result h hlt hn s0 s1 ((plain_lt h).1 he) he0 fuel _ saver o h1 h2 hsv hs
  exact ⟨r, rfl, (plain_lt h).2 r1, by norm_num at r2 ⊢; exact r2, by norm_num at r3 ⊢; exact r3⟩

/-- C189: where the allowed last change is at least five of the smallest steps of the type, in proportion, the inverse root returns after at most
seven steps.  `_partial`: the full claim is for every allowed change that is not zero. -/
theorem invsqrt_ends_partial (hm : WithMagic I f magic) {v eps : Nat} (saver : Nat) (hv : Plain f v)
    (hv1 : 2 ^ (1 - f.bias : ℤ) ≤ magnitude f v) (he : Plain f eps)
    (hbig : 5 * (1 / 2 ^ f.p) ≤ (magnitude f eps : ℝ) * Real.sqrt (magnitude f v : ℝ)) :
    ∃ r, ∀ fuel, 8 ≤ fuel → invsqrt I magic fuel v eps saver = some (some r) := by
  have h := hm.native.agrees
  have hlt := (plain_lt h).1 hv
  have hn := normal_bytes h hv hv1
  obtain ⟨h1, h2⟩ := quick_from h hm.number hlt hn
  obtain ⟨s0, s1⟩ := root_pos h hlt hn
  obtain ⟨r, hr⟩ := ends_all h hlt hn s0 s1 hm.bits ((plain_lt h).1 he) hbig _ h1 h2 saver
  refine ⟨r, fun fuel hf => ?_⟩
  unfold invsqrt
  rw [if_neg (by omega)]
  exact hr fuel hf

/-- C189: with the `ε` of the type it returns for every number from 25 on, off in proportion by at most `9·(ε·√v)²` and two and a half `ε`. -/
theorem invsqrt_large_partial (hm : WithMagic I f magic) {v saver : Nat} (hv : Plain f v) (h25 : 25 ≤ magnitude f v) (hsv : epsilon I < saver) :
    ∃ r, Plain f r ∧ (∀ fuel, 8 ≤ fuel → invsqrt I magic fuel v (epsilon I) saver = some (some r)) ∧
      |(magnitude f r : ℝ) * Real.sqrt (magnitude f v : ℝ) - 1| ≤ 21 / 10000 ∧
      |(magnitude f r : ℝ) * Real.sqrt (magnitude f v : ℝ) - 1| ≤
        9 * (1 / 2 ^ f.p * Real.sqrt (magnitude f v : ℝ)) ^ 2 + 5 / 2 * (1 / 2 ^ f.p) := by
  have h := hm.native.agrees
  have hb := native_bias hm.native
  obtain ⟨e1, e2, e3⟩ := eps_units h (by omega)
  have hO : (0 : ℝ) < one I := by exact_mod_cast one_pos h
  have hem : (magnitude f (epsilon I) : ℝ) = 1 / 2 ^ f.p := by
    have h1 := magR h e3.le
    have h2 : (units f.p (epsilon I) : ℝ) * 2 ^ f.p = one I := by exact_mod_cast e1
    rw [← h1] at h2
    rw [eq_div_iff (by positivity)]
    apply mul_right_cancel₀ hO.ne'
    linarith
  have hep : Plain f (epsilon I) := (plain_lt h).2 e3
  have hpp := Nat.two_pow_pos f.p
  have hv1 : (2 : ℚ) ^ (1 - f.bias : ℤ) ≤ magnitude f v := by
    refine le_trans ?_ h25
    calc (2 : ℚ) ^ (1 - f.bias : ℤ) ≤ 2 ^ (0 : ℤ) := zpow_le_zpow_right₀ (by norm_num) (by omega)
      _ ≤ 25 := by norm_num
  have hroot : 5 ≤ Real.sqrt (magnitude f v : ℝ) := by
    apply Real.le_sqrt_of_sq_le
    have : (25 : ℝ) ≤ magnitude f v := by exact_mod_cast h25
    norm_num
    exact this
  obtain ⟨r, hr⟩ := invsqrt_ends_partial hm saver hv hv1 hep (by
    rw [hem, mul_comm]
    exact mul_le_mul_of_nonneg_left hroot (by positivity))
  obtain ⟨r', hr', hp, c1, c2⟩ := invsqrt_close_partial hm hv hv1 hep (by omega) hsv (hr 8 (le_refl _))
  cases hr'
  rw [hem] at c2
  exact ⟨r, hp, hr, c1, c2⟩

/-- The number 64 in `double` is one of these, and a step from an eighth stays there. -/
example : Plain binary64 0x4050000000000000 ∧ 25 ≤ magnitude binary64 0x4050000000000000 ∧
    invStep float64 0x4050000000000000 0x3FC0000000000000 = some 0x3FC0000000000000 := by
  refine ⟨?_, ?_, by decide +kernel⟩
  · norm_num [Plain, Spec.Finite, Spec.field, binary64]
  · norm_num [magnitude, Spec.field, fraction, binary64]

theorem stuck32 (fuel saver : Nat) (hsv : epsilon float32 < saver) :
    invsqrt float32 magic32 fuel (fdiv float32 (ofNat float32 1) (ofNat float32 5)) (epsilon float32) saver = none := by
  have e : fdiv float32 (ofNat float32 1) (ofNat float32 5) = 1045220557 := by decide +kernel
  have q : quickInvsqrt float32 magic32 1045220557 = 1074852895 := by decide +kernel
  have c : Stuck float32 1045220557 (epsilon float32) 1074731965 :=
    stuck_cycle (b := 1074731964) (by decide +kernel) (by decide +kernel) (by decide +kernel) (by decide +kernel)
  have s : Stuck float32 1045220557 (epsilon float32) 1074852895 :=
    stuck_back (next := 1074729616) (by decide +kernel) (by decide +kernel) <|
    stuck_back (next := 1074731963) (by decide +kernel) (by decide +kernel) <|
    stuck_back (next := 1074731965) (by decide +kernel) (by decide +kernel) c
  rw [e]
  unfold invsqrt
  rw [if_neg (by decide +kernel), q]
  exact s fuel saver hsv

theorem stuck64 (fuel saver : Nat) (hsv : epsilon float64 < saver) :
    invsqrt float64 magic64 fuel (fdiv float64 (ofNat float64 1) (ofNat float64 5)) (epsilon float64) saver = none := by
  have e : fdiv float64 (ofNat float64 1) (ofNat float64 5) = 4596373779694328218 := by decide +kernel
  have q : quickInvsqrt float64 magic64 4596373779694328218 = 4612282520579893980 := by decide +kernel
  have c : Stuck float64 4596373779694328218 (epsilon float64) 4612217596255138984 :=
    stuck_cycle (b := 4612217596255138983) (by decide +kernel) (by decide +kernel) (by decide +kernel) (by decide +kernel)
  have s : Stuck float64 4596373779694328218 (epsilon float64) 4612282520579893980 :=
    stuck_back (next := 4612216335142204196) (by decide +kernel) (by decide +kernel) <|
    stuck_back (next := 4612217595781390123) (by decide +kernel) (by decide +kernel) <|
    stuck_back (next := 4612217596255138917) (by decide +kernel) (by decide +kernel) <|
    stuck_back (next := 4612217596255138984) (by decide +kernel) (by decide +kernel) c
  rw [e]
  unfold invsqrt
  rw [if_neg (by decide +kernel), q]
  exact s fuel saver hsv

set_option maxHeartbeats 1000000 in
theorem stuck128 (fuel saver : Nat) (hsv : epsilon float128 < saver) :
    invsqrt float128 magic128 fuel (fdiv float128 (ofNat float128 1) (ofNat float128 31)) (epsilon float128) saver = none := by
  have e : fdiv float128 (ofNat float128 1) (ofNat float128 31) = 85039605442530456410641131154041868420 := by decide +kernel
  have q : quickInvsqrt float128 magic128 85039605442530456410641131154041868420 = 85077947220302309354785896382432173863 := by decide +kernel
  have c : Stuck float128 85039605442530456410641131154041868420 (epsilon float128) 85077819101587161988099822118460611592 :=
    stuck_cycle (b := 85077819101587161988099822118460611593) (by decide +kernel) (by decide +kernel) (by decide +kernel) (by decide +kernel)
  have s : Stuck float128 85039605442530456410641131154041868420 (epsilon float128) 85077947220302309354785896382432173863 :=
    stuck_back (next := 85077815674740164618416309384589022120) (by decide +kernel) (by decide +kernel) <|
    stuck_back (next := 85077819099150295854229143840342398883) (by decide +kernel) (by decide +kernel) <|
    stuck_back (next := 85077819101587160755635984854285503795) (by decide +kernel) (by decide +kernel) <|
    stuck_back (next := 85077819101587161988099822118145358569) (by decide +kernel) (by decide +kernel) <|
    stuck_back (next := 85077819101587161988099822118460611592) (by decide +kernel) (by decide +kernel) c
  rw [e]
  unfold invsqrt
  rw [if_neg (by decide +kernel), q]
  exact s fuel saver hsv

/-- C189: with the `ε` of the type the inverse root of 1/5 does not return in `float` and `double`, nor that of 1/31 in `float128_t`: the loop
goes to and fro between two neighbours. -/
theorem invsqrt_ends_refuted :
    (∀ fuel saver, epsilon float32 < saver →
      invsqrt float32 magic32 fuel (fdiv float32 (ofNat float32 1) (ofNat float32 5)) (epsilon float32) saver = none) ∧
    (∀ fuel saver, epsilon float64 < saver →
      invsqrt float64 magic64 fuel (fdiv float64 (ofNat float64 1) (ofNat float64 5)) (epsilon float64) saver = none) ∧
    (∀ fuel saver, epsilon float128 < saver →
      invsqrt float128 magic128 fuel (fdiv float128 (ofNat float128 1) (ofNat float128 31)) (epsilon float128) saver = none) :=
  ⟨stuck32, stuck64, stuck128⟩

end ELC.Sqrt
