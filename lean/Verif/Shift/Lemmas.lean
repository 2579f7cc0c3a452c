import Verif.Shift.Model
import Verif.Shift.Spec
import Verif.Ubig.Props
import Verif.Wide.Props
import Verif.Native.Props
/-! Lemmas for the shifts. -/
namespace ELC.Shift
open ELC.Ubig.Spec (Stores)
open ELC.Ubig (Digits)
open ELC.Convert (NType)
open ELC.Native (absN isNeg)
open ELC.Shift.Spec

theorem truncated_mul (x : ℤ) (n : ℕ) : Truncated ((x : ℚ) * 2 ^ (n : ℤ)) (x * 2 ^ n) := by
  unfold Truncated
  push_cast
  rw [zpow_natCast]
  exact ⟨le_rfl, lt_add_one _, mul_self_nonneg _⟩

theorem truncated_div (x : ℤ) (n : ℕ) : Truncated ((x : ℚ) * 2 ^ (-(n : ℤ))) (x.tdiv (2 ^ n)) := by
  unfold Truncated
  rw [zpow_neg, zpow_natCast, ← div_eq_mul_inv]
  have hd : (0 : ℚ) < 2 ^ n := by positivity
  have h1 := Int.tmod_add_mul_tdiv x (2 ^ n)
  have hn : (x.tdiv (2 ^ n)).natAbs = x.natAbs / 2 ^ n := by
    rw [Int.natAbs_tdiv]; simp [Int.natAbs_pow]; rfl
  have e : |((x.tdiv (2 ^ n) : ℤ) : ℚ)| = ((x.natAbs / 2 ^ n : ℕ) : ℚ) := by
    rw [← hn, Nat.cast_natAbs, Int.cast_abs]
  have ex : |(x : ℚ)| = (x.natAbs : ℚ) := by rw [Nat.cast_natAbs, Int.cast_abs]
  rw [e, abs_div, abs_of_pos hd, ex]
  refine ⟨?_, ?_, ?_⟩
  · rw [le_div_iff₀ hd]
    exact_mod_cast Nat.div_mul_le_self _ _
  · rw [div_lt_iff₀ hd]
    have h := Nat.lt_mul_div_succ x.natAbs (Nat.two_pow_pos n)
    rw [mul_comm] at h
    exact_mod_cast h
  · rw [div_mul_eq_mul_div]
    apply div_nonneg _ hd.le
    rcases le_total 0 x with h | h
    · exact mul_nonneg (by exact_mod_cast h) (by exact_mod_cast Int.tdiv_nonneg h (by positivity))
    · exact mul_nonneg_of_nonpos_of_nonpos (by exact_mod_cast h)
        (by
          have := Int.tdiv_nonneg (a := -x) (b := 2 ^ n) (by omega) (by positivity)
          rw [Int.neg_tdiv] at this
          exact_mod_cast (by omega : x.tdiv (2 ^ n) ≤ 0))

theorem truncated_neg {q : ℚ} {z : ℤ} (h : Truncated q z) : Truncated (-q) (-z) := by
  unfold Truncated at h ⊢
  push_cast
  rw [abs_neg, abs_neg, neg_mul_neg]
  exact h

theorem truncated_up {c : ℤ} (h : 0 ≤ c) (x : ℕ) : Truncated ((x : ℚ) * 2 ^ c) ((x * 2 ^ c.natAbs : ℕ) : ℤ) := by
  have := truncated_mul x c.natAbs
  rw [show ((c.natAbs : ℕ) : ℤ) = c by omega] at this
  push_cast at this ⊢
  exact this

theorem truncated_down {c : ℤ} (h : c < 0) (x : ℕ) : Truncated ((x : ℚ) * 2 ^ c) ((x / 2 ^ c.natAbs : ℕ) : ℤ) := by
  have := truncated_div x c.natAbs
  rw [show -((c.natAbs : ℕ) : ℤ) = c by omega] at this
  rw [show ((x / 2 ^ c.natAbs : ℕ) : ℤ) = (x : ℤ).tdiv (2 ^ c.natAbs) by push_cast; rw [Int.tdiv_eq_ediv_of_nonneg (by omega)]]
  exact_mod_cast this

/-- `abs` is defined but of the least `int`, `long` or wider number. -/
theorem absN_fits {T : NType} {c : Int} (hf : Convert.Spec.Fits T.signed T.bits c) :
    absN T c = if T.signed = true ∧ 32 ≤ T.bits ∧ c = T.min then none else some c.natAbs := by
  by_cases hm : T.signed = true ∧ c = T.min
  · obtain ⟨hs, rfl⟩ := hm
    rw [Native.absN_min T hs]
    by_cases h : 32 ≤ T.bits
    · rw [if_pos h, if_pos ⟨hs, h, rfl⟩]
    · rw [if_neg h, if_neg (fun hc => h hc.2.1)]
      congr 1
      unfold NType.min
      rw [if_pos hs, Int.natAbs_neg, Int.natAbs_pow]
      rfl
  · rw [Native.absN_eq T c hf (fun hs hc => hm ⟨hs, hc⟩), if_neg (fun hc => hm ⟨hc.1, hc.2.2⟩)]

theorem isNeg_fits {T : NType} {c : Int} (hf : Convert.Spec.Fits T.signed T.bits c) : isNeg T c = decide (c < 0) := by
  unfold isNeg
  cases hs : T.signed
  · unfold Convert.Spec.Fits at hf
    rw [hs, if_neg (by decide)] at hf
    simp [hf.1]
  · rfl

/-! ### counts that are big integers -/

variable {w n : ℕ}

theorem toSize_div : toSize (n / w) = n % (w * 2 ^ 64) / w := by
  unfold toSize
  exact (Nat.mod_mul_right_div_self n w (2 ^ 64)).symm

theorem mod_width : n % (w * 2 ^ 64) % w = n % w := Nat.mod_mul_right_mod n w (2 ^ 64)

theorem offsets_of_lt (hw64 : w ≤ 2 ^ 64) {m : ℕ} (hm : m < w) (h0 : m ≠ 0) : offsets w m = some m := by
  unfold offsets toSize
  rw [Nat.mod_eq_of_lt (by omega), if_neg (by omega)]

/-- The count without whole digits, if there are none. -/
theorem toSize_small (hw64 : w ≤ 2 ^ 64) (h : n % (w * 2 ^ 64) < w) : toSize n = n % (w * 2 ^ 64) := by
  unfold toSize
  rw [← Nat.mod_mul_left_mod n w (2 ^ 64), Nat.mod_eq_of_lt (by omega)]

/-- The bits of the count that are left. -/
theorem bits_left (hw : 0 < w) (hw64 : w ≤ 2 ^ 64) (hc : ¬(n ≠ 0 ∧ n % (w * 2 ^ 64) = 0)) :
    (let q := n % (w * 2 ^ 64) / w
     let r := if q ≠ 0 then n % w else n
     let s := if q ≠ 0 then n % (w * 2 ^ 64) % w else n % (w * 2 ^ 64)
     (r ≠ 0 ↔ s ≠ 0) ∧ (r ≠ 0 → offsets w r = some s)) := by
  intro q r s
  by_cases hq : q ≠ 0
  · simp only [r, s, if_pos hq, mod_width]
    exact ⟨trivial, offsets_of_lt hw64 (Nat.mod_lt _ hw)⟩
  · simp only [r, s, if_neg hq]
    have hlt : n % (w * 2 ^ 64) < w := by
      have := not_not.1 hq
      rcases (Nat.div_eq_zero_iff).1 this with h | h
      · omega
      · exact h
    have hz : n % (w * 2 ^ 64) ≠ 0 ↔ n ≠ 0 := by
      constructor
      · rintro h rfl; simp at h
      · intro h h2; exact hc ⟨h, h2⟩
    refine ⟨hz.symm, fun h => ?_⟩
    have hm := hz.2 h
    unfold offsets
    rw [toSize_small hw64 hlt, if_neg (by omega)]

/-- A count that is a multiple of `w * 2^64`. -/
theorem offsets_zero (h : n % (w * 2 ^ 64) = 0) : offsets w n = none := by
  unfold offsets toSize
  rw [← Nat.mod_mul_left_mod n w (2 ^ 64), h, if_pos (Or.inl rfl)]

end ELC.Shift
