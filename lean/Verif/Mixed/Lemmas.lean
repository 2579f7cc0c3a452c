import Verif.Mixed.Spec
import Mathlib.Tactic.Linarith
import Mathlib.Tactic.NormNum
import Mathlib.Data.Int.Order.Lemmas
import Mathlib.Algebra.Order.Ring.Int
import Mathlib.Order.Compare
/-! Lemmas about conversions of native numbers. -/
namespace ELC.Mixed.Lemmas
open ELC.Mixed Spec

theorem pow_mono {m n : Nat} (h : m ≤ n) : (2 : Int) ^ m ≤ 2 ^ n := pow_le_pow_right₀ (by norm_num) h

theorem pow_pos' (n : Nat) : (0 : Int) < 2 ^ n := by positivity

theorem pow_half {n : Nat} (h : 0 < n) : (2 : Int) ^ n = 2 ^ (n - 1) + 2 ^ (n - 1) := by
  obtain ⟨k, rfl⟩ : ∃ k, n = k + 1 := ⟨n - 1, by omega⟩
  rw [Nat.add_sub_cancel, pow_succ]; omega

theorem conv_id {c : ITy} {x : Int} (hb : 0 < c.bits) (h : Has c x) : conv c x = x := by
  unfold Has at h
  unfold conv
  have e := pow_half hb
  have hp := pow_pos' (c.bits - 1)
  cases hs : c.signed <;> rw [hs] at h <;> simp only [Bool.false_eq_true, if_false, if_true] at h ⊢
  · exact Int.emod_eq_of_lt h.1 h.2
  · rw [Int.emod_eq_of_lt (by omega) (by omega)]; omega

theorem conv_neg {c : ITy} {x : Int} (hs : c.signed = false) (h0 : x < 0) (h : -2 ^ c.bits ≤ x) : conv c x = x + 2 ^ c.bits := by
  unfold conv
  rw [hs]
  simp only [Bool.false_eq_true, if_false]
  rw [← Int.add_emod_right, Int.emod_eq_of_lt (by omega) (by omega)]

theorem common_comm (t u : ITy) : common t u = common u t := by
  unfold common
  generalize promote t = p
  generalize promote u = q
  obtain ⟨pb, ps⟩ := p
  obtain ⟨qb, qs⟩ := q
  cases ps <;> cases qs <;> simp [Nat.max_comm]

theorem promote_bits (t : ITy) : 32 ≤ (promote t).bits ∧ t.bits ≤ (promote t).bits := by
  unfold promote
  by_cases h : t.bits < 32
  · rw [if_pos h]; exact ⟨le_refl _, le_of_lt h⟩
  · rw [if_neg h]; exact ⟨by omega, le_refl _⟩

theorem promote_has {t : ITy} {x : Int} (hb : 0 < t.bits) (h : Has t x) : Has (promote t) x := by
  unfold promote
  by_cases hl : t.bits < 32
  · rw [if_pos hl]
    unfold Has at h ⊢
    have m1 := pow_mono (show t.bits - 1 ≤ 31 by omega)
    have m2 := pow_mono (show t.bits ≤ 31 by omega)
    cases hs : t.signed <;> rw [hs] at h <;> simp only [Bool.false_eq_true, if_false, if_true] at h ⊢
    · have := pow_pos' 31
      constructor <;> simp only [show (32 - 1 : Nat) = 31 from rfl] <;> omega
    · constructor <;> simp only [show (32 - 1 : Nat) = 31 from rfl] <;> omega
  · rw [if_neg hl]; exact h

theorem common_bits (t u : ITy) : 32 ≤ (common t u).bits ∧ t.bits ≤ (common t u).bits := by
  have h1 := promote_bits t
  have h2 := promote_bits u
  unfold common
  generalize promote t = p at *
  generalize promote u = q at *
  obtain ⟨pb, ps⟩ := p
  obtain ⟨qb, qs⟩ := q
  simp only at *
  cases ps <;> cases qs <;> simp only [Bool.false_eq_true, Bool.true_eq_false, if_true, if_false]
  · omega
  · split <;> simp only <;> omega
  · split <;> simp only <;> omega
  · omega

theorem has_wider {s : Bool} {m n : Nat} {x : Int} (h : Has ⟨m, s⟩ x) (l : m ≤ n) : Has ⟨n, s⟩ x := by
  unfold Has at *
  have m1 := pow_mono (show m - 1 ≤ n - 1 by omega)
  have m2 := pow_mono l
  cases s <;> simp only [Bool.false_eq_true, if_false, if_true] at h ⊢ <;> omega

/-- A number that is not negative, or whose common type has a sign, keeps its value. -/
theorem common_has {t u : ITy} {x : Int} (hb : 0 < t.bits) (h : Has t x) (k : (common t u).signed = true ∨ 0 ≤ x) :
    Has (common t u) x := by
  have hp := promote_has hb h
  have h1 := promote_bits t
  have h2 := promote_bits u
  unfold common at *
  generalize promote t = p at *
  generalize promote u = q at *
  obtain ⟨pb, ps⟩ := p
  obtain ⟨qb, qs⟩ := q
  simp only at *
  cases ps <;> cases qs <;> simp only [Bool.false_eq_true, Bool.true_eq_false, if_true, if_false] at k ⊢
  · exact has_wider hp (le_max_left _ _)
  · by_cases hl : qb ≤ pb
    · rw [if_pos hl]; exact hp
    · rw [if_neg hl]
      unfold Has at *
      have m1 := pow_mono (show pb ≤ qb - 1 by omega)
      simp only [Bool.false_eq_true, if_false, if_true] at hp ⊢
      have := pow_pos' (qb - 1)
      omega
  · by_cases hl : pb ≤ qb
    · rw [if_pos hl] at k ⊢
      simp only [Bool.false_eq_true, false_or] at k
      unfold Has at *
      have m1 := pow_mono (show pb - 1 ≤ qb by omega)
      simp only [Bool.false_eq_true, if_false, if_true] at hp ⊢
      omega
    · rw [if_neg hl]; exact hp
  · exact has_wider hp (le_max_left _ _)

/-- What a number is taken for in the common type. -/
def seen (c : ITy) (x : Int) : Int := if c.signed = false ∧ x < 0 then x + 2 ^ c.bits else x

theorem half_le {t : ITy} {x : Int} (hb : 0 < t.bits) (h : Has t x) : -2 ^ (t.bits - 1) ≤ x ∧ x < 2 ^ t.bits := by
  unfold Has at h
  have e := pow_half hb
  have hp := pow_pos' (t.bits - 1)
  cases hs : t.signed <;> rw [hs] at h <;> simp only [Bool.false_eq_true, if_false, if_true] at h <;> omega

theorem conv_seen_left {a b : Num} (ha : Num.Ok a) : conv (common a.ty b.ty) a.val = seen (common a.ty b.ty) a.val := by
  have hb := common_bits a.ty b.ty
  unfold seen
  by_cases h : (common a.ty b.ty).signed = false ∧ a.val < 0
  · rw [if_pos h]
    refine conv_neg h.1 h.2 ?_
    have := (half_le ha.1 ha.2).1
    have m := pow_mono (show a.ty.bits - 1 ≤ (common a.ty b.ty).bits by omega)
    omega
  · rw [if_neg h]
    refine conv_id (by omega) (common_has ha.1 ha.2 ?_)
    by_cases hs : (common a.ty b.ty).signed = true
    · exact Or.inl hs
    · right
      by_contra hn
      exact h ⟨by simpa using hs, by omega⟩

theorem conv_seen_right {a b : Num} (hb : Num.Ok b) : conv (common a.ty b.ty) b.val = seen (common a.ty b.ty) b.val := by
  rw [common_comm]; exact conv_seen_left hb

theorem compare_conv (a b : Num) :
    compareNum a b = some (compare (conv (common a.ty b.ty) a.val) (conv (common a.ty b.ty) b.val)) := by
  unfold compareNum
  by_cases h : spaceship a b = true
  · simp only [h, if_true]
  · simp only [h, Bool.false_eq_true, if_false]
    generalize conv _ a.val = x
    generalize conv _ b.val = y
    by_cases h1 : x = y
    · rw [if_pos h1, h1, (compare_eq_iff_eq (a := y) (b := y)).2 rfl]
    · rw [if_neg h1]
      by_cases h2 : x < y
      · rw [if_pos h2, compare_lt_iff_lt.2 h2]
      · rw [if_neg h2, if_pos (by omega), compare_gt_iff_gt.2 (by omega)]

theorem signed_or {c : ITy} : c.signed = true ∨ c.signed = false := by cases c.signed <;> simp

/-- With a common type without sign at most one of the two is negative. -/
theorem one_negative {a b : Num} (ha : Num.Ok a) (hb : Num.Ok b) (hc : (common a.ty b.ty).signed = false) :
    0 ≤ a.val ∨ 0 ≤ b.val := by
  by_contra hn
  rw [not_or] at hn
  have ta := promote_has ha.1 ha.2
  have tb := promote_has hb.1 hb.2
  unfold common at hc
  generalize promote a.ty = p at *
  generalize promote b.ty = q at *
  obtain ⟨pb, ps⟩ := p
  obtain ⟨qb, qs⟩ := q
  unfold Has at ta tb
  cases ps <;> cases qs <;> simp at * <;> omega

end ELC.Mixed.Lemmas
