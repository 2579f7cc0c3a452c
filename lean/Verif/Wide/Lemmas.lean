import Verif.Wide.Spec
import Verif.Ubig.Props
import Verif.Bigint.Props
import Verif.Bigfloat.Props
import Mathlib.Tactic.Ring
import Mathlib.Tactic.Linarith
/-! The operations on stored digits do what the operations on natural numbers do. -/
namespace ELC.Wide
open Ubig.Spec (Stores val) 
open Spec
open Bigint (Big)
open Bigfloat (UFrac Frac)

/-- The stored form of a sign and a magnitude. -/
structure Rep (w : Nat) (a : SBig) (A : Big) : Prop where
  num : Stores w a.num A.num
  neg : a.neg = A.neg

theorem isInt_iff {w : Nat} {a : SBig} {z : Int} : IsInt w a z ↔ ∃ A, Rep w a A ∧ z = Bigint.Spec.value A := by
  constructor
  · rintro ⟨n, h1, h2⟩
    exact ⟨⟨a.neg, n⟩, ⟨h1, rfl⟩, h2⟩
  · rintro ⟨A, ⟨h1, h2⟩, h3⟩
    exact ⟨A.num, h1, by rw [h2]; exact h3⟩

theorem stores_eq_nil {w : Nat} {l : List Nat} {n : Nat} (h : Stores w l n) : l = [] ↔ n = 0 := by
  constructor
  · rintro rfl; rw [← h.3]; rfl
  · rintro rfl; exact Ubig.eq_nil_of_val_zero h.2 h.3

theorem rep_normal {w : Nat} {a : SBig} {A : Big} (h : Rep w a A) : Normal a ↔ Bigint.Spec.Normal A := by
  unfold Normal Bigint.Spec.Normal
  rw [stores_eq_nil h.1, h.2]

theorem rep_make {w : Nat} {l : List Nat} {n : Nat} (h : Stores w l n) (s : Bool) :
    Rep w (SBig.make l s) (Bigint.make n s) := by
  refine ⟨h, ?_⟩
  unfold SBig.make Bigint.make
  simp only [stores_eq_nil h]

section
variable {w : Nat} {a b : SBig} {A B : Big} (ha : Rep w a A) (hb : Rep w b B)
include ha

theorem rep_negL : Rep w a.negL (Bigint.negL A) := by
  unfold SBig.negL Bigint.negL
  rw [ha.2]; exact rep_make ha.1 _

theorem rep_negR : Rep w a.negR (Bigint.negR A) := ⟨ha.1, by simp [SBig.negR, Bigint.negR, ha.2]⟩

include hb

theorem rep_eq : a.eq b = Bigint.eq A B := by
  unfold SBig.eq Bigint.eq
  rw [ha.2, hb.2]
  split
  · rfl
  · rw [Bool.eq_iff_iff, Ubig.eq_iff ha.1 hb.1, beq_iff_eq]

theorem rep_cmp : a.cmp b = Bigint.cmp A B := by
  unfold SBig.cmp Bigint.cmp
  rw [ha.2, hb.2, Ubig.cmp_correct ha.1 hb.1]

theorem rep_sub : ∃ r, a.sub w b = some r ∧ Rep w r (Bigint.sub A B) := by
  unfold SBig.sub Bigint.sub
  rw [ha.2, hb.2, Ubig.cmp_correct ha.1 hb.1]
  simp only [Nat.compare_eq_lt]
  split
  · obtain ⟨r, h1, h2⟩ := Ubig.add_correct ha.1 hb.1
    exact ⟨_, by rw [h1]; rfl, rep_make h2 _⟩
  · split
    · obtain ⟨r, h1, h2⟩ := Ubig.sub_correct hb.1 ha.1
      exact ⟨_, by rw [h1]; rfl, rep_make h2 _⟩
    · obtain ⟨r, h1, h2⟩ := Ubig.sub_correct ha.1 hb.1
      exact ⟨_, by rw [h1]; rfl, rep_make h2 _⟩

theorem rep_subAssign : ∃ r, a.subAssign w b = some r ∧ Rep w r (Bigint.subAssign A B) := by
  unfold SBig.subAssign Bigint.subAssign
  obtain ⟨m, h1, h2⟩ : ∃ m, (if a.neg == b.neg then Ubig.addAssign w a.num b.num else some a.num) = some m ∧
      Stores w m (if A.neg == B.neg then A.num + B.num else A.num) := by
    rw [ha.2, hb.2]
    split
    · exact Ubig.add_assign_correct ha.1 hb.1
    · exact ⟨_, rfl, ha.1⟩
  rw [h1]
  simp only [Option.bind_some]
  rw [Ubig.cmp_correct h2 hb.1, ha.2]
  simp only [Nat.compare_eq_lt]
  generalize (if (A.neg == B.neg) = true then A.num + B.num else A.num) = M at *
  split
  · obtain ⟨r, e1, e2⟩ := Ubig.sub_correct hb.1 h2
    exact ⟨_, by rw [e1]; rfl, e2, rfl⟩
  · obtain ⟨r, e1, e2⟩ := Ubig.sub_correct h2 hb.1
    exact ⟨_, by rw [e1]; rfl, e2, rfl⟩

theorem rep_addAssign (fuel : Nat) : (Bigint.addAssign fuel A B = none → a.addAssign w fuel b = none) ∧
    ∀ R, Bigint.addAssign fuel A B = some R → ∃ r, a.addAssign w fuel b = some r ∧ Rep w r R := by
  induction fuel generalizing a A with
  | zero => exact ⟨fun _ => rfl, fun R h => by cases h⟩
  | succ fuel ih =>
    unfold SBig.addAssign Bigint.addAssign
    rw [ha.2, hb.2]
    split
    · refine ⟨fun h => (by cases h), fun R h => ?_⟩
      obtain ⟨r, h1, h2⟩ := Ubig.add_assign_correct ha.1 hb.1
      injection h with h; subst h
      exact ⟨_, by rw [h1]; rfl, h2, rfl⟩
    · split
      · exact ih (rep_negR (rep_negR ha))
      · refine ⟨fun h => (by cases h), fun R h => ?_⟩
        injection h with h; subst h
        exact rep_subAssign ha (rep_negL hb)

theorem rep_add (fuel : Nat) : (Bigint.add fuel A B = none → a.add w fuel b = none) ∧
    ∀ R, Bigint.add fuel A B = some R → ∃ r, a.add w fuel b = some r ∧ Rep w r R := by
  unfold SBig.add Bigint.add
  rw [ha.2, hb.2]
  split
  · refine ⟨fun h => (by cases h), fun R h => ?_⟩
    obtain ⟨r, h1, h2⟩ := Ubig.add_correct ha.1 hb.1
    injection h with h; subst h
    exact ⟨_, by rw [h1]; rfl, rep_make h2 _⟩
  · split
    · exact rep_addAssign (rep_negR (rep_negL ha)) hb fuel
    · exact rep_addAssign (rep_negR (rep_negL hb)) ha fuel

end

/-! ### the greatest common divisor -/

theorem two_pow_dvd_unique {x i j : Nat} (h1 : 2 ^ i ∣ x) (h2 : ¬ 2 ^ (i + 1) ∣ x) (h3 : 2 ^ j ∣ x) (h4 : ¬ 2 ^ (j + 1) ∣ x) :
    i = j := by
  rcases Nat.lt_trichotomy i j with h | h | h
  · exact absurd (Nat.dvd_trans (Nat.pow_dvd_pow 2 h) h3) h2
  · exact h
  · exact absurd (Nat.dvd_trans (Nat.pow_dvd_pow 2 h) h1) h4

theorem countrZero_eq {k : Nat} {l : List Nat} {x : Nat} (h : Stores (Bits.bitsOf k) l x) :
    Ubig.countrZero k l = Arith.big.ctz x := by
  by_cases hx : x = 0
  · rw [(stores_eq_nil h).2 hx, hx]; rfl
  · have hc : Arith.big.ctz x = Arith.trailing x := if_neg hx
    rw [hc]
    obtain ⟨h1, h2⟩ := Ubig.countr_zero_correct h hx
    obtain ⟨m, hm, he⟩ := Arith.trailing_spec x hx
    refine two_pow_dvd_unique h1 h2 ⟨m, he⟩ ?_
    rintro ⟨c, hc⟩
    have hp : 0 < 2 ^ Arith.trailing x := Nat.two_pow_pos _
    have : 2 ^ Arith.trailing x * m = 2 ^ Arith.trailing x * (2 * c) := by
      rw [← he, ← Nat.mul_assoc, ← Nat.pow_succ]; exact hc
    have := Nat.eq_of_mul_eq_mul_left hp this
    omega

theorem gcdLoop_spec {k : Nat} (fuel : Nat) : ∀ (a b : List Nat) (x y s : Nat), Stores (Bits.bitsOf k) a x →
    Stores (Bits.bitsOf k) b y → x + y + (if y = 0 then 0 else 1) < fuel →
    ∃ r v, gcdLoop k fuel a b s = some r ∧ Stores (Bits.bitsOf k) r v ∧ Arith.binaryLoop Arith.big x y s = some v := by
  induction fuel with
  | zero => intro a b x y s _ _ h; omega
  | succ fuel ih =>
    intro a b x y s ha hb hf
    have hw := Ubig.bitsOf_pos k
    unfold gcdLoop
    rw [Arith.binaryLoop]
    by_cases hy : y = 0
    · rw [if_pos ((stores_eq_nil hb).2 hy), dif_pos hy]
      refine ⟨_, _, rfl, Ubig.shl_correct hw ha s, ?_⟩
      rw [Nat.shiftLeft_eq]
      exact congrArg some (Nat.mod_zero _)
    · rw [if_neg (fun h => hy ((stores_eq_nil hb).1 h)), dif_neg hy, if_pos (by rfl)]
      have hA := Ubig.shr_assign_correct hw ha (Ubig.countrZero k a)
      have hB := Ubig.shr_assign_correct hw hb (Ubig.countrZero k b)
      have hx1 := Arith.shiftRight_le' x (Arith.big.ctz x)
      have hy1 := Arith.shiftRight_le' y (Arith.big.ctz y)
      have hy2 : y >>> Arith.big.ctz y ≠ 0 := by
        have hc : Arith.big.ctz y = Arith.trailing y := if_neg hy
        rw [hc]
        have := (Arith.shift_trailing hy).1
        intro h; rw [h] at this; cases this
      rw [countrZero_eq ha, ← Nat.shiftRight_eq_div_pow] at hA
      rw [countrZero_eq hb, ← Nat.shiftRight_eq_div_pow] at hB
      rw [if_neg hy] at hf
      simp only [countrZero_eq ha, countrZero_eq hb]
      generalize x >>> Arith.big.ctz x = x' at *
      generalize y >>> Arith.big.ctz y = y' at *
      by_cases hlt : x' < y'
      · rw [if_pos (by rw [Ubig.cmp_correct hA hB, Nat.compare_eq_lt]; exact hlt), if_pos hlt]
        obtain ⟨r, h1, h2⟩ := Ubig.sub_correct hB hA
        simp only [h1, Option.bind_some]
        exact ih _ _ _ _ _ h2 hA (by split <;> omega)
      · rw [if_neg (by rw [Ubig.cmp_correct hA hB, Nat.compare_eq_lt]; exact hlt), if_neg hlt]
        obtain ⟨r, h1, h2⟩ := Ubig.sub_correct hA hB
        simp only [h1, Option.bind_some]
        exact ih _ _ _ _ _ h2 hB (by split <;> omega)

/-! ### the fractions -/

/-- The stored form of a numerator and a denominator. -/
structure FRep (w : Nat) (a : SFrac) (A : UFrac) : Prop where
  num : Stores w a.num A.num
  den : Stores w a.den A.den

theorem isFrac_iff {w : Nat} {a : SFrac} {q : ℚ} :
    IsFrac w a q ↔ ∃ A, FRep w a A ∧ Bigfloat.Spec.Finite A ∧ q = Bigfloat.Spec.uvalue A := by
  constructor
  · rintro ⟨n, d, h1, h2, h3, h4⟩
    exact ⟨⟨n, d⟩, ⟨h1, h2⟩, h3, h4⟩
  · rintro ⟨A, ⟨h1, h2⟩, h3, h4⟩
    exact ⟨A.num, A.den, h1, h2, h3, h4⟩

theorem bind_some_iff {α β : Type} {o : Option α} {f : α → Option β} {r : β} (h : (o >>= f) = some r) :
    ∃ x, o = some x ∧ f x = some r := Option.bind_eq_some_iff.1 h

section
variable {w : Nat} {a b r : SFrac} {A B : UFrac} (ha : FRep w a A) (hb : FRep w b B)
include ha hb

theorem frep_add (h : a.add w b = some r) : FRep w r (A.add B) := by
  unfold SFrac.add at h
  obtain ⟨m, e1, h⟩ := bind_some_iff h
  obtain ⟨n, e2, h⟩ := bind_some_iff h
  obtain ⟨s, e3, h⟩ := bind_some_iff h
  obtain ⟨d, e4, h⟩ := bind_some_iff h
  injection h with h; subst h
  have s1 := Ubig.mul_partial ha.1 hb.2 e1
  have s2 := Ubig.mul_partial hb.1 ha.2 e2
  obtain ⟨s', e3', s3⟩ := Ubig.add_assign_correct s1 s2
  rw [e3] at e3'; injection e3' with e3'; subst e3'
  exact ⟨s3, Ubig.mul_partial ha.2 hb.2 e4⟩

theorem frep_sub (h : a.sub w b = some r) : FRep w r (A.sub B) := by
  unfold SFrac.sub at h
  obtain ⟨m, e1, h⟩ := bind_some_iff h
  obtain ⟨n, e2, h⟩ := bind_some_iff h
  obtain ⟨s, e3, h⟩ := bind_some_iff h
  obtain ⟨d, e4, h⟩ := bind_some_iff h
  injection h with h; subst h
  have s1 := Ubig.mul_partial ha.1 hb.2 e1
  have s2 := Ubig.mul_partial hb.1 ha.2 e2
  obtain ⟨s', e3', s3⟩ := Ubig.sub_correct s1 s2
  rw [e3] at e3'; injection e3' with e3'; subst e3'
  exact ⟨s3, Ubig.mul_partial ha.2 hb.2 e4⟩

theorem frep_mul (h : a.mul w b = some r) : FRep w r (A.mul B) := by
  unfold SFrac.mul at h
  obtain ⟨m, e1, h⟩ := bind_some_iff h
  obtain ⟨d, e4, h⟩ := bind_some_iff h
  injection h with h; subst h
  exact ⟨Ubig.mul_partial ha.1 hb.1 e1, Ubig.mul_partial ha.2 hb.2 e4⟩

theorem frep_div (h : a.div w b = some r) : FRep w r (A.div B) := by
  unfold SFrac.div at h
  obtain ⟨m, e1, h⟩ := bind_some_iff h
  obtain ⟨d, e4, h⟩ := bind_some_iff h
  injection h with h; subst h
  exact ⟨Ubig.mul_partial ha.1 hb.2 e1, Ubig.mul_partial ha.2 hb.1 e4⟩

theorem frep_eq {e : Bool} (h : a.eq w b = some e) : e = A.eq B := by
  unfold SFrac.eq at h
  obtain ⟨m, e1, h⟩ := bind_some_iff h
  obtain ⟨n, e2, h⟩ := bind_some_iff h
  injection h with h; subst h
  rw [Bool.eq_iff_iff, Ubig.eq_iff (Ubig.mul_partial ha.1 hb.2 e1) (Ubig.mul_partial hb.1 ha.2 e2)]
  unfold UFrac.eq
  rw [beq_iff_eq]

theorem frep_cmp {e : Ordering} (h : a.cmp w b = some e) : e = A.cmp B := by
  unfold SFrac.cmp at h
  obtain ⟨m, e1, h⟩ := bind_some_iff h
  obtain ⟨n, e2, h⟩ := bind_some_iff h
  injection h with h; subst h
  rw [Ubig.cmp_correct (Ubig.mul_partial ha.1 hb.2 e1) (Ubig.mul_partial hb.1 ha.2 e2)]
  rfl

/-- With one operand short, every operation delivers. -/
theorem frep_delivers (h : Shorter 64 a ∨ Shorter 64 b) : (∃ r, a.add w b = some r) ∧ (∃ r, a.sub w b = some r) ∧
    (∃ r, a.mul w b = some r) ∧ (∃ r, a.div w b = some r) ∧ (∃ e, a.eq w b = some e) ∧ ∃ e, a.cmp w b = some e := by
  have h1 : a.num.length < 64 ∨ b.den.length < 64 := h.imp (·.1) (·.2)
  have h2 : b.num.length < 64 ∨ a.den.length < 64 := h.symm.imp (·.1) (·.2)
  have h3 : a.den.length < 64 ∨ b.den.length < 64 := h.imp (·.2) (·.2)
  have h4 : a.num.length < 64 ∨ b.num.length < 64 := h.imp (·.1) (·.1)
  obtain ⟨m, e1, s1⟩ := Ubig.mul_small_correct ha.1 hb.2 h1
  obtain ⟨n, e2, s2⟩ := Ubig.mul_small_correct hb.1 ha.2 h2
  obtain ⟨d, e3, s3⟩ := Ubig.mul_small_correct ha.2 hb.2 h3
  obtain ⟨p, e4, s4⟩ := Ubig.mul_small_correct ha.1 hb.1 h4
  obtain ⟨q, e5, s5⟩ := Ubig.mul_small_correct ha.2 hb.1 h2.symm
  obtain ⟨s, e6, _⟩ := Ubig.add_assign_correct s1 s2
  obtain ⟨t, e7, _⟩ := Ubig.sub_correct s1 s2
  unfold SFrac.add SFrac.sub SFrac.mul SFrac.div SFrac.eq SFrac.cmp
  simp only [e1, e2, e3, e4, e5, e6, e7, Option.bind_eq_bind, Option.bind_some]
  exact ⟨⟨_, rfl⟩, ⟨_, rfl⟩, ⟨_, rfl⟩, ⟨_, rfl⟩, ⟨_, rfl⟩, ⟨_, rfl⟩⟩

end

/-- The stored form of a sign and a fraction. -/
structure QRep (w : Nat) (a : SRat) (A : Frac) : Prop where
  num : FRep w a.num A.num
  neg : a.neg = A.neg

theorem isRat_iff {w : Nat} {a : SRat} {q : ℚ} :
    IsRat w a q ↔ ∃ A, QRep w a A ∧ Bigfloat.Spec.Finite A.num ∧ q = Bigfloat.Spec.value A := by
  unfold IsRat
  constructor
  · rintro ⟨p, h, hq⟩
    obtain ⟨A, h1, h2, h3⟩ := isFrac_iff.1 h
    exact ⟨⟨a.neg, A⟩, ⟨h1, rfl⟩, h2, by rw [hq, h3]; rfl⟩
  · rintro ⟨A, h1, h2, h3⟩
    exact ⟨_, isFrac_iff.2 ⟨A.num, h1.1, h2, rfl⟩, by rw [h3, h1.2]; rfl⟩

end ELC.Wide
