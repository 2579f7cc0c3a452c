import Verif.Wide.Lemmas
import Verif.Wide.Lehmer
/-!
Properties C179 to C182: the signed integer and the fractions over their stored digits.

`IsInt w a z`, `IsFrac w a q` and `IsRat w a q` (see `Spec.lean`) say which number a sign and stored digits denote; `w` is
the digit width.  The theorems of the areas `Bigint` and `Bigfloat` are about exact magnitudes; these are about the digits
the program computes.
-/
namespace ELC.Wide
open Ubig.Spec (Stores val)
open Spec
open Bigint (Big)
open Bigfloat (UFrac Frac)

/-! ### C179: the signed integer -/

/-- C179: `==` and `<=>` compare the integers, except for a negative zero. -/
theorem int_compare_correct {w : Nat} {a b : SBig} {x y : Int} (ha : IsInt w a x) (hb : IsInt w b y) (na : Normal a)
    (nb : Normal b) : (a.eq b = true ↔ x = y) ∧ (a.cmp b = .lt ↔ x < y) ∧ (a.cmp b = .gt ↔ y < x) := by
  obtain ⟨A, ra, rfl⟩ := isInt_iff.1 ha
  obtain ⟨B, rb, rfl⟩ := isInt_iff.1 hb
  rw [rep_normal ra] at na
  rw [rep_normal rb] at nb
  rw [rep_eq ra rb, rep_cmp ra rb]
  have h := Bigint.cmp_partial A B na nb
  exact ⟨Bigint.eq_partial A B na nb, h.1, h.2.1⟩

/-- C179: `-` delivers the difference, whatever the signs. -/
theorem int_sub_correct {w : Nat} {a b : SBig} {x y : Int} (ha : IsInt w a x) (hb : IsInt w b y) :
    ∃ r, a.sub w b = some r ∧ IsInt w r (x - y) ∧ Normal r := by
  obtain ⟨A, ra, rfl⟩ := isInt_iff.1 ha
  obtain ⟨B, rb, rfl⟩ := isInt_iff.1 hb
  obtain ⟨r, h1, h2⟩ := rep_sub ra rb
  have h := Bigint.sub_correct A B
  exact ⟨r, h1, isInt_iff.2 ⟨_, h2, h.1.symm⟩, (rep_normal h2).2 h.2⟩

/-- C179: negation. -/
theorem int_neg_correct {w : Nat} {a : SBig} {x : Int} (ha : IsInt w a x) :
    IsInt w a.negL (-x) ∧ IsInt w a.negR (-x) ∧ Normal a.negL := by
  obtain ⟨A, ra, rfl⟩ := isInt_iff.1 ha
  have h := Bigint.neg_correct A
  exact ⟨isInt_iff.2 ⟨_, rep_negL ra, h.1.symm⟩, isInt_iff.2 ⟨_, rep_negR ra, h.2.1.symm⟩, (rep_normal (rep_negL ra)).2 h.2.2⟩

/-- C179, the part of `+` and `+=` that holds: operands with the same sign. -/
theorem int_add_partial {w : Nat} {a b : SBig} {x y : Int} (ha : IsInt w a x) (hb : IsInt w b y) (h : a.neg = b.neg)
    (fuel : Nat) : (∃ r, a.add w fuel b = some r ∧ IsInt w r (x + y) ∧ Normal r) ∧
      ∃ r, a.addAssign w (fuel + 1) b = some r ∧ IsInt w r (x + y) := by
  obtain ⟨A, ra, rfl⟩ := isInt_iff.1 ha
  obtain ⟨B, rb, rfl⟩ := isInt_iff.1 hb
  have hs : A.neg = B.neg := by rw [← ra.2, ← rb.2, h]
  constructor
  · obtain ⟨R, e1, e2, e3⟩ := Bigint.add_partial fuel A B hs
    obtain ⟨r, h1, h2⟩ := (rep_add ra rb fuel).2 R e1
    exact ⟨r, h1, isInt_iff.2 ⟨R, h2, e2.symm⟩, (rep_normal h2).2 e3⟩
  · obtain ⟨R, e1, e2⟩ := Bigint.add_assign_partial fuel A B hs
    obtain ⟨r, h1, h2⟩ := (rep_addAssign ra rb (fuel + 1)).2 R e1
    exact ⟨r, h1, isInt_iff.2 ⟨R, h2, e2.symm⟩⟩

/-- C179 is false of the program: `+` of stored integers with different signs never returns. -/
theorem int_add_refuted {w : Nat} {a b : SBig} {x y : Int} (ha : IsInt w a x) (hb : IsInt w b y) (na : Normal a)
    (nb : Normal b) (h : a.neg ≠ b.neg) (fuel : Nat) : a.add w fuel b = none := by
  obtain ⟨A, ra, rfl⟩ := isInt_iff.1 ha
  obtain ⟨B, rb, rfl⟩ := isInt_iff.1 hb
  exact (rep_add ra rb fuel).1 (Bigint.add_refuted fuel A B ((rep_normal ra).1 na) ((rep_normal rb).1 nb)
    (by rw [← ra.2, ← rb.2]; exact h))

/-- C179, what `-=` computes: nothing changes for equal signs, and the sum comes out for different ones. -/
theorem int_sub_assign_characterised {w : Nat} {a b : SBig} {x y : Int} (ha : IsInt w a x) (hb : IsInt w b y) :
    ∃ r, a.subAssign w b = some r ∧ IsInt w r (if a.neg = b.neg then x else x + y) := by
  obtain ⟨A, ra, rfl⟩ := isInt_iff.1 ha
  obtain ⟨B, rb, rfl⟩ := isInt_iff.1 hb
  obtain ⟨r, h1, h2⟩ := rep_subAssign ra rb
  have h := Bigint.sub_assign_characterised A B
  refine ⟨r, h1, isInt_iff.2 ⟨_, h2, ?_⟩⟩
  rw [ra.2, rb.2]
  split
  · next hs => rw [h.1 hs]
  · next hs => rw [h.2 hs]

/-- C179: a product that is delivered is exact; it is delivered if one factor has fewer than 64 digits. -/
theorem int_mul_partial {w : Nat} {a b : SBig} {x y : Int} (ha : IsInt w a x) (hb : IsInt w b y) :
    (∀ r, a.mul w b = some r → IsInt w r (x * y) ∧ Normal r) ∧ (∀ r, a.mulAssign w b = some r → IsInt w r (x * y)) ∧
    (a.num.length < 64 ∨ b.num.length < 64 → ∃ r s, a.mul w b = some r ∧ a.mulAssign w b = some s) := by
  obtain ⟨A, ra, rfl⟩ := isInt_iff.1 ha
  obtain ⟨B, rb, rfl⟩ := isInt_iff.1 hb
  unfold SBig.mul SBig.mulAssign
  rw [ra.2, rb.2]
  refine ⟨?_, ?_, ?_⟩
  · intro r h
    obtain ⟨p, e, rfl⟩ := Option.map_eq_some_iff.1 h
    have hr := rep_make (Ubig.mul_partial ra.1 rb.1 e) (A.neg != B.neg)
    have := Bigint.mul_correct A B
    exact ⟨isInt_iff.2 ⟨_, hr, this.1.symm⟩, (rep_normal hr).2 this.2⟩
  · intro r h
    obtain ⟨p, e, rfl⟩ := Option.map_eq_some_iff.1 h
    exact isInt_iff.2 ⟨⟨A.neg != B.neg, A.num * B.num⟩, ⟨Ubig.mul_partial ra.1 rb.1 e, rfl⟩,
      (Bigint.mul_assign_correct A B).symm⟩
  · intro h
    obtain ⟨p, e, _⟩ := Ubig.mul_small_correct ra.1 rb.1 h
    exact ⟨_, _, by rw [e]; rfl, by rw [e]; rfl⟩

theorem natAbs_value (A : Big) : (Bigint.Spec.value A).natAbs = A.num := by
  unfold Bigint.Spec.value; split <;> simp

/-- C179, what `/` computes for dividends of up to 32 digits: the quotient rounded towards zero, or one further from zero
in exactly the cases of `Ubig.div_characterised`. -/
theorem int_div_characterised {w : Nat} {cut : Nat → Nat} {a b : SBig} {x y : Int} (ha : IsInt w a x) (hb : IsInt w b y)
    (hy : y ≠ 0) (h32 : a.num.length ≤ 32) :
    let q := x.natAbs / y.natAbs
    let over := b.num.length ≤ a.num.length ∧
      y.natAbs ≤ x.natAbs % y.natAbs + (q + 1) * (y.natAbs % (2 ^ w) ^ (2 * b.num.length - a.num.length - 2))
    ∃ r s, a.div w cut b = some r ∧ a.divAssign w cut b = some s ∧ Normal r ∧
      (¬ over → IsInt w r (x.tdiv y) ∧ IsInt w s (x.tdiv y)) ∧
      (over → ∃ z : Int, IsInt w r z ∧ IsInt w s z ∧ z = (if a.neg = b.neg then 1 else -1) * ((q : Int) + 1)) := by
  obtain ⟨A, ra, rfl⟩ := isInt_iff.1 ha
  obtain ⟨B, rb, rfl⟩ := isInt_iff.1 hb
  simp only [natAbs_value]
  have hB : B.num ≠ 0 := by
    intro h; apply hy; unfold Bigint.Spec.value; rw [h]; simp
  obtain ⟨d, e, st⟩ := Ubig.div_characterised (cut := cut) ra.1 rb.1 (Nat.pos_of_ne_zero hB) h32
  unfold SBig.div SBig.divAssign
  rw [ra.2, rb.2, e]
  refine ⟨_, _, rfl, rfl, (rep_normal (rep_make st _)).2 (Bigint.normal_make _ _), ?_, ?_⟩
  · intro hn
    rw [if_neg hn, Nat.add_zero] at st
    have hu : Bigint.udiv A.num B.num = A.num / B.num := if_neg hB
    have hr := rep_make st (A.neg != B.neg)
    rw [← hu] at hr st
    exact ⟨isInt_iff.2 ⟨_, hr, (Bigint.div_correct A B hB).1.symm⟩,
      isInt_iff.2 ⟨⟨A.neg != B.neg, _⟩, ⟨st, rfl⟩, (Bigint.div_assign_correct A B hB).symm⟩⟩
  · intro ho
    rw [if_pos ho] at st
    refine ⟨_, isInt_iff.2 ⟨_, rep_make st _, rfl⟩, isInt_iff.2 ⟨⟨A.neg != B.neg, _⟩, ⟨st, rfl⟩, ?_⟩, ?_⟩
    · rw [Bigint.value_make]; rfl
    · rw [Bigint.value_make]
      cases A.neg <;> cases B.neg <;> simp

/-- C179: `/` is exact for dividends of up to 32 digits if the divisor divides it, or has at most half as many digits. -/
theorem int_div_partial {w : Nat} {cut : Nat → Nat} {a b : SBig} {x y : Int} (ha : IsInt w a x) (hb : IsInt w b y)
    (hy : y ≠ 0) (h32 : a.num.length ≤ 32) (h : y ∣ x ∨ 2 * (b.num.length - 1) ≤ a.num.length) :
    ∃ r s, a.div w cut b = some r ∧ a.divAssign w cut b = some s ∧ IsInt w r (x.tdiv y) ∧ IsInt w s (x.tdiv y) ∧ Normal r := by
  obtain ⟨r, s, e1, e2, hn, h1, -⟩ := int_div_characterised (cut := cut) ha hb hy h32
  suffices ho : ¬ (b.num.length ≤ a.num.length ∧ y.natAbs ≤ x.natAbs % y.natAbs +
      (x.natAbs / y.natAbs + 1) * (y.natAbs % (2 ^ w) ^ (2 * b.num.length - a.num.length - 2))) from
    ⟨r, s, e1, e2, (h1 ho).1, (h1 ho).2, hn⟩
  have hy' : 0 < y.natAbs := Int.natAbs_pos.2 hy
  obtain ⟨m, sa, rfl⟩ := ha
  obtain ⟨n, sb, rfl⟩ := hb
  have ea : (if a.neg = true then -(m : Int) else m).natAbs = m := by split <;> simp
  have eb : (if b.neg = true then -(n : Int) else n).natAbs = n := by split <;> simp
  rw [← Int.natAbs_dvd_natAbs, ea, eb] at h
  rw [eb] at hy'
  rw [ea, eb]
  rintro ⟨hl, ho⟩
  rcases h with h | h
  · have := Ubig.dvd_not_over sa.1 sb.2 (Ubig.stores_pos_ne sb hy') hl
      (by rw [sa.3, sb.3]; exact Nat.mod_eq_zero_of_dvd h)
    rw [sa.3, sb.3] at this
    exact this ho
  · rw [show 2 * b.num.length - a.num.length - 2 = 0 by omega, Nat.pow_zero, Nat.mod_one, Nat.mul_zero] at ho
    have := Nat.mod_lt m hy'
    omega

/-- C179 is false of the program: `-5·2^96 / (5·2^96+1)` is minus one. -/
theorem int_div_refuted (cut : Nat → Nat) :
    SBig.div 32 cut ⟨true, [0, 0, 0, 5]⟩ ⟨false, [1, 0, 0, 5]⟩ = some ⟨true, [1]⟩ := rfl

/-- C179: a remainder that is delivered has the sign of the dividend and is exact; up to 32 digits it is delivered. -/
theorem int_mod_partial {w : Nat} {cut : Nat → Nat} (hw : 0 < w) {a b : SBig} {x y : Int} (ha : IsInt w a x)
    (hb : IsInt w b y) (hy : y ≠ 0) : (∀ r, a.mod w cut b = some r → IsInt w r (x.tmod y) ∧ Normal r) ∧
      (∀ r, a.modAssign w cut b = some r → IsInt w r (x.tmod y)) ∧
      (a.num.length ≤ 32 → ∃ r s, a.mod w cut b = some r ∧ a.modAssign w cut b = some s) := by
  obtain ⟨A, ra, rfl⟩ := isInt_iff.1 ha
  obtain ⟨B, rb, rfl⟩ := isInt_iff.1 hb
  have hB : B.num ≠ 0 := by
    intro h; apply hy; unfold Bigint.Spec.value; rw [h]; simp
  have hu : Bigint.umod A.num B.num = A.num % B.num := if_neg hB
  unfold SBig.mod SBig.modAssign
  rw [ra.2]
  refine ⟨?_, ?_, ?_⟩
  · intro r h
    obtain ⟨p, e, rfl⟩ := Option.map_eq_some_iff.1 h
    have st := Ubig.mod_partial hw ra.1 rb.1 (Nat.pos_of_ne_zero hB) e
    rw [← hu] at st
    have := Bigint.mod_correct A B hB
    exact ⟨isInt_iff.2 ⟨_, rep_make st _, this.1.symm⟩, (rep_normal (rep_make st _)).2 this.2⟩
  · intro r h
    obtain ⟨p, e, rfl⟩ := Option.map_eq_some_iff.1 h
    have st := Ubig.mod_partial hw ra.1 rb.1 (Nat.pos_of_ne_zero hB) e
    rw [← hu] at st
    exact isInt_iff.2 ⟨⟨A.neg, _⟩, ⟨st, rfl⟩, (Bigint.mod_assign_correct A B hB).symm⟩
  · intro h32
    obtain ⟨p, e, _⟩ := Ubig.mod_small_correct (cut := cut) ra.1 rb.1 (Nat.pos_of_ne_zero hB) h32
    exact ⟨_, _, by rw [e]; rfl, by rw [e]; rfl⟩

/-- C179: the shifts; `>>` is defined unless the count has a whole-digit part and a bit part and digits are left. -/
theorem int_shift_partial {w : Nat} (hw : 0 < w) {a : SBig} {x : Int} (ha : IsInt w a x) (n : Nat) :
    IsInt w (a.shl w n) (x * 2 ^ n) ∧ IsInt w (a.shrAssign w n) (x.tdiv (2 ^ n)) ∧
    (∀ r, a.shr w n = some r → IsInt w r (x.tdiv (2 ^ n)) ∧ Normal r) ∧
    (a.shr w n = none ↔ w ≤ n ∧ n % w ≠ 0 ∧ n / w < a.num.length) := by
  obtain ⟨A, ra, rfl⟩ := isInt_iff.1 ha
  have h := Bigint.shift_correct A n
  have hs : Bigint.Spec.value (Bigint.shrAssign A n) = (Bigint.Spec.value A).tdiv (2 ^ n) := by
    rw [← h.2.1]; unfold Bigint.shr; rw [Bigint.value_make]; rfl
  unfold SBig.shl SBig.shrAssign SBig.shr
  rw [ra.2]
  refine ⟨isInt_iff.2 ⟨_, rep_make (Ubig.shl_correct hw ra.1 n) _, h.1.symm⟩,
    isInt_iff.2 ⟨Bigint.shrAssign A n, ⟨Ubig.shr_assign_correct hw ra.1 n, rfl⟩, hs.symm⟩, ?_, ?_⟩
  · intro r e
    obtain ⟨p, e', rfl⟩ := Option.map_eq_some_iff.1 e
    have hr := rep_make (Ubig.shr_delivered_correct hw ra.1 n e') A.neg
    exact ⟨isInt_iff.2 ⟨_, hr, h.2.1.symm⟩, (rep_normal hr).2 h.2.2.2⟩
  · rw [Option.map_eq_none_iff]
    exact Ubig.shr_characterised hw n

/-- C179, what `++` and `--` compute: one more and one less, except that moving towards zero from a multiple of `2^w` moves
`2^w - 2` away from zero. -/
theorem int_step_characterised {w : Nat} (hw : 1 < w) {a : SBig} {x : Int} (ha : IsInt w a x) (na : Normal a) :
    IsInt w (a.inc w) (if x < 0 ∧ x % 2 ^ w = 0 then x - (2 ^ w - 2) else x + 1) ∧
    IsInt w (a.dec w) (if 0 < x ∧ x % 2 ^ w = 0 then x + (2 ^ w - 2) else x - 1) := by
  obtain ⟨n, st, hx⟩ := ha
  have h2 : 2 ≤ 2 ^ w := by
    calc 2 = 2 ^ 1 := rfl
      _ ≤ 2 ^ w := Nat.pow_le_pow_right (by decide) (by omega)
  have hne : a.num = [] ↔ n = 0 := stores_eq_nil st
  have cast : ∀ m : Nat, ((m : Int) % 2 ^ w = 0 ↔ m % 2 ^ w = 0) := by
    intro m; constructor <;> intro h <;> exact_mod_cast h
  have castn : ∀ m : Nat, ((-(m : Int)) % 2 ^ w = 0 ↔ m % 2 ^ w = 0) := by
    intro m
    rw [← cast, ← Int.dvd_iff_emod_eq_zero, ← Int.dvd_iff_emod_eq_zero, Int.dvd_neg]
  have castb : n ≠ 0 → ((n + 2 ^ w - 2 : Nat) : Int) = n + 2 ^ w - 2 := by
    intro _; rw [Nat.cast_sub (by omega)]; push_cast; ring
  obtain ⟨neg, num⟩ := a
  simp only at st hx hne
  cases neg
  · have hx : x = n := by simpa using hx
    subst hx
    constructor
    · rw [if_neg (by omega)]
      exact ⟨n + 1, Ubig.inc_correct (by omega) st, by simp [SBig.inc]⟩
    · by_cases h0 : n = 0
      · subst h0
        have : num = [] := hne.2 rfl
        subst this
        refine ⟨1, ?_, by simp [SBig.dec]⟩
        have := Ubig.inc_correct (w := w) (by omega) st
        simpa [SBig.dec] using this
      · have hd : (SBig.dec w ⟨false, num⟩) = ⟨false, Ubig.subOne w num⟩ := by
          have : num ≠ [] := fun h => h0 (hne.1 h)
          simp [SBig.dec, this]
        rw [hd]
        by_cases hl : n % 2 ^ w = 0
        · rw [if_pos ⟨by omega, (cast n).2 hl⟩]
          refine ⟨_, Ubig.dec_borrow hw st h0 hl, ?_⟩
          rw [castb h0]
          simp
          ring
        · rw [if_neg (fun h => hl ((cast n).1 h.2))]
          refine ⟨_, Ubig.dec_partial st hl, ?_⟩
          simp
          omega
  · have hx : x = -(n : Int) := by simpa using hx
    subst hx
    have h0 : n ≠ 0 := fun h => by have := na (hne.2 h); cases this
    constructor
    · by_cases hl : n % 2 ^ w = 0
      · rw [if_pos ⟨by omega, (castn n).2 hl⟩]
        have hs := Ubig.dec_borrow hw st h0 hl
        have : Ubig.subOne w num ≠ [] := fun h => by have := (stores_eq_nil hs).1 h; omega
        refine ⟨n + 2 ^ w - 2, by simpa [SBig.inc, this] using hs, ?_⟩
        rw [castb h0]
        simp [SBig.inc, this]
        ring
      · rw [if_neg (fun h => hl ((castn n).1 h.2))]
        have hs := Ubig.dec_partial st hl
        refine ⟨n - 1, ?_, ?_⟩
        · unfold SBig.inc; simp only [if_true]; split <;> exact hs
        · unfold SBig.inc
          simp only [if_true]
          split
          · next h => have := (stores_eq_nil hs).1 h; simp; omega
          · simp; omega
    · rw [if_neg (by omega)]
      refine ⟨n + 1, ?_, ?_⟩
      · have := Ubig.inc_correct (w := w) (by omega) st
        simpa [SBig.dec] using this
      · simp [SBig.dec]; omega

/-- C179 is false of the program: `++` of `-2^32` gives `-2^33+2`. -/
theorem int_inc_refuted : SBig.inc 32 ⟨true, [0, 1]⟩ = ⟨true, [4294967294, 1]⟩ := by decide +kernel

-- `-(2^32+7) - 9·2^32`, `-7/2` and `-7%2`
example : SBig.sub 32 ⟨true, [7, 1]⟩ ⟨false, [0, 9]⟩ = some ⟨true, [7, 10]⟩ ∧
    SBig.div 32 id ⟨true, [7]⟩ ⟨false, [2]⟩ = some ⟨true, [3]⟩ ∧ SBig.mod 32 id ⟨true, [7]⟩ ⟨false, [2]⟩ = some ⟨true, [1]⟩ := by
  decide +kernel

theorem stores_of {w : Nat} {l : List Nat} (h1 : ∀ d ∈ l, d < 2 ^ w) (h2 : l.getLast? ≠ some 0) : Stores w l (val w l) :=
  ⟨h1, fun d h h0 => h2 (by rw [h, h0]), rfl⟩

example : IsInt 32 ⟨true, [7, 1]⟩ (-(2 ^ 32 + 7)) ∧ Normal ⟨true, [7, 1]⟩ :=
  ⟨⟨2 ^ 32 + 7, stores_of (by decide) (by decide), by simp⟩, by simp [Normal]⟩

/-! ### C180: arithmetic of fractions -/

/-- C180: what `+`, `-`, `*` and `/` of unsigned fractions deliver is exact; `-` stops at zero. -/
theorem frac_arith_partial {w : Nat} {a b : SFrac} {p q : ℚ} (ha : IsFrac w a p) (hb : IsFrac w b q) :
    (∀ r, a.add w b = some r → IsFrac w r (p + q)) ∧ (∀ r, a.sub w b = some r → IsFrac w r (max (p - q) 0)) ∧
    (∀ r, a.mul w b = some r → IsFrac w r (p * q)) ∧ (q ≠ 0 → ∀ r, a.div w b = some r → IsFrac w r (p / q)) := by
  obtain ⟨A, ra, fa, rfl⟩ := isFrac_iff.1 ha
  obtain ⟨B, rb, fb, rfl⟩ := isFrac_iff.1 hb
  refine ⟨fun r h => ?_, fun r h => ?_, fun r h => ?_, fun h0 r h => ?_⟩
  · have := Bigfloat.ufrac_add_correct A B fa fb
    exact isFrac_iff.2 ⟨_, frep_add ra rb h, this.2, this.1.symm⟩
  · have := Bigfloat.ufrac_sub_correct A B fa fb
    exact isFrac_iff.2 ⟨_, frep_sub ra rb h, this.2, this.1.symm⟩
  · have := Bigfloat.ufrac_mul_correct A B fa fb
    exact isFrac_iff.2 ⟨_, frep_mul ra rb h, this.2, this.1.symm⟩
  · have := Bigfloat.ufrac_div_correct A B fa fb h0
    exact isFrac_iff.2 ⟨_, frep_div ra rb h, this.2, this.1.symm⟩

/-- C180: what `==` and `<=>` of unsigned fractions deliver is equality and order of the rationals. -/
theorem frac_compare_partial {w : Nat} {a b : SFrac} {p q : ℚ} (ha : IsFrac w a p) (hb : IsFrac w b q) :
    (∀ e, a.eq w b = some e → (e = true ↔ p = q)) ∧
    (∀ c, a.cmp w b = some c → (c = .lt ↔ p < q) ∧ (c = .gt ↔ q < p)) := by
  obtain ⟨A, ra, fa, rfl⟩ := isFrac_iff.1 ha
  obtain ⟨B, rb, fb, rfl⟩ := isFrac_iff.1 hb
  refine ⟨fun e h => ?_, fun c h => ?_⟩
  · rw [frep_eq ra rb h]; exact Bigfloat.ufrac_eq_correct A B fa fb
  · rw [frep_cmp ra rb h]
    have := Bigfloat.ufrac_cmp_correct A B fa fb
    exact ⟨this.1, this.2.1⟩

/-- C180: all of them deliver if numerator and denominator of one operand have fewer than 64 digits. -/
theorem frac_delivers {w : Nat} {a b : SFrac} {p q : ℚ} (ha : IsFrac w a p) (hb : IsFrac w b q)
    (h : Shorter 64 a ∨ Shorter 64 b) : (∃ r, a.add w b = some r) ∧ (∃ r, a.sub w b = some r) ∧
    (∃ r, a.mul w b = some r) ∧ (∃ r, a.div w b = some r) ∧ (∃ e, a.eq w b = some e) ∧ ∃ e, a.cmp w b = some e := by
  obtain ⟨A, ra, _⟩ := isFrac_iff.1 ha
  obtain ⟨B, rb, _⟩ := isFrac_iff.1 hb
  exact frep_delivers ra rb h

/-- C180 is false of longer fractions: the product of two whole numbers of 64 digits is undefined (C08), so multiplying, dividing,
comparing, adding and subtracting fractions made of them is. -/
theorem frac_delivers_refuted : ∃ (a b c : SFrac) (p q : ℚ), IsFrac 32 a p ∧ IsFrac 32 b q ∧ IsFrac 32 c (1 / q) ∧
    a.mul 32 b = none ∧ a.div 32 c = none ∧ a.eq 32 c = none ∧ a.cmp 32 c = none ∧ a.add 32 c = none ∧ a.sub 32 c = none := by
  have ha : Stores 32 Ubig.overrunA (Ubig.Spec.val 32 Ubig.overrunA) := ⟨by
      intro d hd
      simp only [Ubig.overrunA, List.mem_append, List.mem_replicate, List.mem_singleton] at hd
      rcases hd with ⟨_, rfl⟩ | rfl <;> decide,
    by intro d hd; simp [Ubig.overrunA] at hd; omega, rfl⟩
  have hb : Stores 32 Ubig.overrunB (Ubig.Spec.val 32 Ubig.overrunB) := ⟨by
      intro d hd
      simp only [Ubig.overrunB, List.mem_append, List.mem_replicate, List.mem_singleton] at hd
      rcases hd with (⟨_, rfl⟩ | ⟨_, rfl⟩) | rfl <;> decide,
    by intro d hd; simp [Ubig.overrunB] at hd; omega, rfl⟩
  have h1 : Stores 32 [1] 1 := ⟨by unfold Ubig.Spec.Digits; decide, by intro d hd; simp at hd; omega, by decide⟩
  have hz : Ubig.Spec.val 32 Ubig.overrunB ≠ 0 := by decide +kernel
  refine ⟨⟨Ubig.overrunA, [1]⟩, ⟨Ubig.overrunB, [1]⟩, ⟨[1], Ubig.overrunB⟩, _, _, ⟨_, 1, ha, h1, by decide, rfl⟩,
    ⟨_, 1, hb, h1, by decide, rfl⟩, ⟨1, _, h1, hb, hz, ?_⟩, ?_⟩
  · simp
  · have hm : Ubig.mul 32 Ubig.overrunA Ubig.overrunB = none := by decide +kernel
    unfold SFrac.mul SFrac.div SFrac.eq SFrac.cmp SFrac.add SFrac.sub
    simp [hm]

example : SFrac.add 32 ⟨[1], [2]⟩ ⟨[0, 1], [3]⟩ = some ⟨[3, 2], [6]⟩ := by decide +kernel

theorem rat_add_delivered {w : Nat} {a b r : SRat} {A B : Frac} (ra : QRep w a A) (rb : QRep w b B)
    (h : a.add w b = some r) : QRep w r (A.add B) := by
  unfold SRat.add at h
  unfold Frac.add
  rw [ra.2, rb.2] at h
  by_cases hs : (A.neg == B.neg) = true
  · rw [if_pos hs] at h
    rw [if_pos hs]
    obtain ⟨n, e, rfl⟩ := Option.map_eq_some_iff.1 h
    exact ⟨frep_add ra.1 rb.1 e, rfl⟩
  · rw [if_neg hs] at h
    rw [if_neg hs]
    obtain ⟨c, ec, h⟩ := Option.bind_eq_some_iff.1 h
    rw [frep_cmp ra.1 rb.1 ec] at h
    split at h
    · next hc =>
      rw [if_pos hc]
      obtain ⟨n, e, rfl⟩ := Option.map_eq_some_iff.1 h
      exact ⟨frep_sub ra.1 rb.1 e, rfl⟩
    · next hc =>
      rw [if_neg hc]
      obtain ⟨n, e, rfl⟩ := Option.map_eq_some_iff.1 h
      exact ⟨frep_sub rb.1 ra.1 e, rfl⟩

theorem rat_sub_eq (w : Nat) (a b : SRat) : a.sub w b = a.add w b.neg' := by
  unfold SRat.sub SRat.add SRat.neg'
  cases a.neg <;> cases b.neg <;> rfl

theorem qrep_neg {w : Nat} {b : SRat} {B : Frac} (rb : QRep w b B) : QRep w b.neg' B.neg' :=
  ⟨rb.1, by simp [SRat.neg', Frac.neg', rb.2]⟩

/-- C180: what the operations of signed fractions deliver is exact, whatever the signs. -/
theorem rat_arith_partial {w : Nat} {a b : SRat} {p q : ℚ} (ha : IsRat w a p) (hb : IsRat w b q) :
    (∀ r, a.add w b = some r → IsRat w r (p + q)) ∧ (∀ r, a.sub w b = some r → IsRat w r (p - q)) ∧
    (∀ r, a.mul w b = some r → IsRat w r (p * q)) ∧ (q ≠ 0 → ∀ r, a.div w b = some r → IsRat w r (p / q)) := by
  obtain ⟨A, ra, fa, rfl⟩ := isRat_iff.1 ha
  obtain ⟨B, rb, fb, rfl⟩ := isRat_iff.1 hb
  refine ⟨fun r h => ?_, fun r h => ?_, fun r h => ?_, fun h0 r h => ?_⟩
  · have := Bigfloat.frac_add_correct A B fa fb
    exact isRat_iff.2 ⟨_, rat_add_delivered ra rb h, this.2, this.1.symm⟩
  · rw [rat_sub_eq] at h
    have := Bigfloat.frac_sub_correct A B fa fb
    rw [Bigfloat.sub_eq_add_neg'] at this
    exact isRat_iff.2 ⟨_, rat_add_delivered ra (qrep_neg rb) h, this.2, this.1.symm⟩
  · unfold SRat.mul at h
    rw [ra.2, rb.2] at h
    obtain ⟨n, e, rfl⟩ := Option.map_eq_some_iff.1 h
    have := Bigfloat.frac_mul_correct A B fa fb
    exact isRat_iff.2 ⟨A.mul B, ⟨frep_mul ra.1 rb.1 e, rfl⟩, this.2, this.1.symm⟩
  · unfold SRat.div at h
    rw [ra.2, rb.2] at h
    obtain ⟨n, e, rfl⟩ := Option.map_eq_some_iff.1 h
    have := Bigfloat.frac_div_correct A B fa fb h0
    exact isRat_iff.2 ⟨A.div B, ⟨frep_div ra.1 rb.1 e, rfl⟩, this.2, this.1.symm⟩

/-- C180: what `==` and `<=>` of signed fractions deliver, except for a negative zero. -/
theorem rat_compare_partial {w : Nat} {a b : SRat} {p q : ℚ} (ha : IsRat w a p) (hb : IsRat w b q)
    (na : a.num.num = [] → a.neg = false) (nb : b.num.num = [] → b.neg = false) :
    (∀ e, a.eq w b = some e → (e = true ↔ p = q)) ∧
    (∀ c, a.cmp w b = some c → (c = .lt ↔ p < q) ∧ (c = .gt ↔ q < p)) := by
  obtain ⟨A, ra, fa, rfl⟩ := isRat_iff.1 ha
  obtain ⟨B, rb, fb, rfl⟩ := isRat_iff.1 hb
  rw [stores_eq_nil ra.1.1, ra.2] at na
  rw [stores_eq_nil rb.1.1, rb.2] at nb
  refine ⟨fun e h => ?_, fun c h => ?_⟩
  · rw [← Bigfloat.frac_eq_partial A B fa fb na nb]
    unfold SRat.eq at h
    unfold Frac.eq
    rw [ra.2, rb.2] at h
    split at h
    · next hs => injection h with h; subst h; rw [if_pos hs]
    · next hs => rw [if_neg hs, frep_eq ra.1 rb.1 h]
  · rw [← (Bigfloat.frac_cmp_partial A B fa fb na nb).1, ← (Bigfloat.frac_cmp_partial A B fa fb na nb).2]
    unfold SRat.cmp at h
    unfold Frac.cmp
    rw [ra.2, rb.2] at h
    split at h
    · next hs => injection h with h; subst h; rw [if_pos hs]; exact ⟨Iff.rfl, Iff.rfl⟩
    · next hs =>
      obtain ⟨o, e, rfl⟩ := Option.map_eq_some_iff.1 h
      rw [if_neg hs, frep_cmp ra.1 rb.1 e]; exact ⟨Iff.rfl, Iff.rfl⟩

/-- C180: all of them deliver if numerator and denominator of one operand have fewer than 64 digits. -/
theorem rat_delivers {w : Nat} {a b : SRat} {p q : ℚ} (ha : IsRat w a p) (hb : IsRat w b q)
    (h : Shorter 64 a.num ∨ Shorter 64 b.num) : (∃ r, a.add w b = some r) ∧ (∃ r, a.sub w b = some r) ∧
    (∃ r, a.mul w b = some r) ∧ (∃ r, a.div w b = some r) ∧ (∃ e, a.eq w b = some e) ∧ ∃ e, a.cmp w b = some e := by
  obtain ⟨A, ra, _⟩ := isRat_iff.1 ha
  obtain ⟨B, rb, _⟩ := isRat_iff.1 hb
  obtain ⟨⟨r1, h1⟩, ⟨r2, h2⟩, ⟨r3, h3⟩, ⟨r4, h4⟩, ⟨r5, h5⟩, r6, h6⟩ := frep_delivers ra.1 rb.1 h
  obtain ⟨-, ⟨r7, h7⟩, -⟩ := frep_delivers rb.1 ra.1 h.symm
  have hadd : ∀ b' : SRat, b'.num = b.num → ∃ r, a.add w b' = some r := by
    intro b' hb'
    unfold SRat.add
    rw [hb', h1, h2, h6, h7]
    simp only [Option.map_some, Option.bind_some]
    split
    · exact ⟨_, rfl⟩
    · split <;> exact ⟨_, rfl⟩
  refine ⟨hadd b rfl, by rw [rat_sub_eq]; exact hadd _ rfl, ?_, ?_, ?_, ?_⟩
  · unfold SRat.mul; rw [h3]; exact ⟨_, rfl⟩
  · unfold SRat.div; rw [h4]; exact ⟨_, rfl⟩
  · unfold SRat.eq; rw [h5]; split <;> exact ⟨_, rfl⟩
  · unfold SRat.cmp; rw [h6]; split <;> exact ⟨_, rfl⟩

example : SRat.add 32 ⟨true, ⟨[1], [2]⟩⟩ ⟨false, ⟨[1], [3]⟩⟩ = some ⟨true, ⟨[1], [6]⟩⟩ := by decide +kernel
example : IsRat 32 ⟨true, ⟨[1], [2]⟩⟩ (-(1 / 2)) :=
  ⟨1 / 2, ⟨1, 2, stores_of (by decide) (by decide), stores_of (by decide) (by decide), by decide, by norm_num⟩, by simp⟩

/-! ### C181: the greatest common divisor and reduction -/

/-- C181: `gcd` of numbers below 256 digits delivers the greatest common divisor, if the first one is not zero (or the
second one is odd or zero); every `fuel` above the sum of the two is enough. -/
theorem gcd_partial {k fuel : Nat} {lehmer : List Nat → List Nat → Option (List Nat)} {a b : List Nat} {x y : Nat}
    (ha : Stores (Bits.bitsOf k) a x) (hb : Stores (Bits.bitsOf k) b y) (hla : a.length < 256) (hlb : b.length < 256)
    (hf : x + y + 1 < fuel) (h : x ≠ 0 ∨ y % 2 = 1 ∨ y = 0) :
    ∃ r, gcd k fuel lehmer a b = some r ∧ Stores (Bits.bitsOf k) r (Nat.gcd x y) := by
  obtain ⟨r, v, h1, h2, h3⟩ := gcdLoop_spec fuel a b x y 0 ha hb (by split <;> omega)
  have := Arith.binary_gcd_partial h
  unfold Arith.binaryGcd at this
  rw [this] at h3
  injection h3 with h3; subst h3
  refine ⟨r, ?_, h2⟩
  unfold gcd
  rw [if_neg (by unfold lehmerThreshold; omega), h1]

/-- C181 is false of the program: `gcd(0, 12)` is 3. -/
theorem gcd_refuted : gcd 2 20 (fun _ _ => none) [] [12] = some [3] := by decide +kernel

example : gcd 2 300 (fun _ _ => none) [48] [180] = some [12] := by decide +kernel

theorem simplify_gcd {k fuel : Nat} {lehmer : List Nat → List Nat → Option (List Nat)} {a : SFrac} {n d : Nat}
    (hn : Stores (Bits.bitsOf k) a.num n) (hd : Stores (Bits.bitsOf k) a.den d) (h0 : d ≠ 0) (hla : a.num.length < 256)
    (hlb : a.den.length < 256) (hf : n + d + 1 < fuel) : ∃ r g, gcd k fuel lehmer a.num a.den = some r ∧
      Stores (Bits.bitsOf k) r g ∧ 0 < g ∧ g ∣ n ∧ g ∣ d ∧ (n ≠ 0 → g = Nat.gcd n d) := by
  by_cases hz : n = 0
  · obtain ⟨r, v, h1, h2, h3⟩ := gcdLoop_spec fuel a.num a.den n d 0 hn hd (by split <;> omega)
    obtain ⟨m, e1, e2, e3⟩ := Arith.binary_gcd_zero_characterised h0
    unfold Arith.binaryGcd at e3
    rw [hz, e3] at h3
    injection h3 with h3; subst h3
    refine ⟨r, m, ?_, h2, by omega, by rw [hz]; exact dvd_zero _, ⟨_, by rw [Nat.mul_comm]; exact e2⟩, fun h => absurd hz h⟩
    unfold gcd
    rw [if_neg (by unfold lehmerThreshold; omega), h1]
  · obtain ⟨r, h1, h2⟩ := gcd_partial (lehmer := lehmer) hn hd hla hlb hf (Or.inl hz)
    exact ⟨r, _, h1, h2, Nat.gcd_pos_of_pos_right _ (Nat.pos_of_ne_zero h0), Nat.gcd_dvd_left _ _, Nat.gcd_dvd_right _ _,
      fun _ => rfl⟩

/-- C181: `simplify` of a fraction with at most 32 digits in numerator and denominator delivers the same rational, in
lowest terms unless it is zero. -/
theorem simplify_partial {k fuel : Nat} {cut : Nat → Nat} {lehmer : List Nat → List Nat → Option (List Nat)} {a : SFrac}
    {n d : Nat} (hn : Stores (Bits.bitsOf k) a.num n) (hd : Stores (Bits.bitsOf k) a.den d) (h0 : d ≠ 0)
    (hla : a.num.length ≤ 32) (hlb : a.den.length ≤ 32) (hf : n + d + 1 < fuel) :
    ∃ r n' d', a.simplify k fuel cut lehmer = some r ∧ Stores (Bits.bitsOf k) r.num n' ∧ Stores (Bits.bitsOf k) r.den d' ∧
      d' ≠ 0 ∧ (n' : ℚ) / d' = (n : ℚ) / d ∧ (n ≠ 0 → Nat.Coprime n' d') := by
  obtain ⟨r, g, e, st, hpos, ⟨x, hx⟩, ⟨y, hy⟩, hg⟩ := simplify_gcd (lehmer := lehmer) hn hd h0 (by omega) (by omega) hf
  obtain ⟨p, ep, sp⟩ := Ubig.div_exact_correct (cut := cut) hn st hpos hla ⟨x, hx⟩
  obtain ⟨q, eq, sq⟩ := Ubig.div_exact_correct (cut := cut) hd st hpos hlb ⟨y, hy⟩
  rw [Nat.div_eq_of_eq_mul_right hpos hx] at sp
  rw [Nat.div_eq_of_eq_mul_right hpos hy] at sq
  have hy0 : y ≠ 0 := fun h => h0 (by rw [hy, h, Nat.mul_zero])
  refine ⟨⟨p, q⟩, x, y, ?_, sp, sq, hy0, ?_, ?_⟩
  · unfold SFrac.simplify
    simp only [e, ep, eq, Option.bind_eq_bind, Option.bind_some]
  · have hg' : (g : ℚ) ≠ 0 := by exact_mod_cast hpos.ne'
    rw [hx, hy]
    push_cast
    rw [mul_div_mul_left _ _ hg']
  · intro hn0
    have hgcd := hg hn0
    rw [hx, hy, Nat.gcd_mul_left] at hgcd
    exact Nat.eq_of_mul_eq_mul_left hpos (by rw [← hgcd, Nat.mul_one])

/-- Division of more than 32 digits by one digit reads before the storage. -/
theorem div_one_digit {w : Nat} (cut : Nat → Nat) {a b : List Nat} {g : Nat} (hb : Stores w b g) (hpos : 0 < g)
    (h1 : b.length = 1) (hl : 32 < a.length) : Ubig.div w cut a b = none := by
  obtain ⟨d, rfl⟩ := List.length_eq_one_iff.1 h1
  have hd : d ≠ 0 := by
    rintro rfl
    have := hb.3; simp [val] at this; omega
  have hz : Ubig.endZeros [d] = 0 := by simp [Ubig.endZeros, hd]
  have hm : Ubig.noMod a [d] = some 0 := by
    unfold Ubig.noMod
    simp only [List.length_singleton, Ubig.noModSize, hz, List.drop_zero]
    rw [if_neg (by simp only [List.cons_ne_nil, false_or]; omega), if_neg (by simp)]
  unfold Ubig.div
  rw [if_neg (by simp), if_neg (by rw [List.length_singleton]; omega)]
  unfold Ubig.fastDiv
  simp only [hm, Option.bind_eq_bind, Option.bind_some, List.drop_zero]
  rw [if_neg (by unfold Ubig.divThreshold; omega)]
  simp [Ubig.regularise]

/-- C181: whatever `gcd` delivers for numbers of every size, those of 256 digits and more included, is the greatest common
divisor, if the first one is not zero (or the second one is odd or zero). -/
theorem gcd_long_partial {k fuel : Nat} {cut : Nat → Nat} {a b r : List Nat} {x y : Nat} (ha : Stores (Bits.bitsOf k) a x)
    (hb : Stores (Bits.bitsOf k) b y) (hf : x + y + 1 < fuel) (h0 : x ≠ 0 ∨ y % 2 = 1 ∨ y = 0)
    (h : gcd k fuel (lehmerGcd k cut fuel) a b = some r) : Stores (Bits.bitsOf k) r (Nat.gcd x y) := by
  by_cases hl : max a.length b.length ≥ 256
  · unfold gcd at h
    rw [if_pos (by unfold lehmerThreshold; exact hl)] at h
    exact lehmerGcd_sound ha hb hf h
  · obtain ⟨r', h1, h2⟩ := gcd_partial (lehmer := lehmerGcd k cut fuel) ha hb (by omega) (by omega) hf h0
    rw [h1] at h
    injection h with h
    rwa [h] at h2

example : lehmerOuter 32 (fun n => n * 100 / 272) 9 3 [0, 0, 84] [0, 0, 60] = some [0, 0, 12] := by decide +kernel

/-- C181 is false of the program: `gcd` of a number of at least 256 digits and one that has two digits or more but at least
32 fewer divides more than 32 digits by one digit in its first round, which reads outside the storage. -/
theorem gcd_long_refuted {k : Nat} (cut : Nat → Nat) {a b : List Nat} {x y : Nat} (ha : Stores (Bits.bitsOf k) a x)
    (hb : Stores (Bits.bitsOf k) b y) (hla : 256 ≤ a.length) (h2 : 2 ≤ b.length) (hl : b.length + 32 ≤ a.length) (fuel : Nat) :
    gcd k fuel (lehmerGcd k cut fuel) a b = none := by
  have hw := Ubig.bitsOf_pos k
  have hlt := Ubig.length_lt_of_val_lt hb.1 ha.2 (show b.length < a.length by omega)
  rw [ha.3, hb.3] at hlt
  have hcmp : ¬ Ubig.cmp a b = .lt := by
    rw [Ubig.cmp_val ha hb, Nat.compare_eq_lt]; omega
  unfold gcd
  rw [if_pos (by unfold lehmerThreshold; omega)]
  unfold lehmerGcd
  dsimp only
  rw [if_neg hcmp, if_neg (by dsimp only; omega)]
  cases fuel with
  | zero => rfl
  | succ fuel =>
    have hane : a ≠ [] := fun e => by rw [e] at hla; simp at hla
    have hbne : b ≠ [] := fun e => by rw [e] at h2; simp at h2
    rw [lehmerOuter, if_neg (by simp [hane, hbne])]
    dsimp only
    rw [if_neg (by omega)]
    have sa := Ubig.shrDigits_stores (b.length - 1) ha
    have sb := Ubig.shrDigits_stores (b.length - 1) hb
    have la : (Ubig.shrDigits a (b.length - 1)).length = a.length - (b.length - 1) := by
      unfold Ubig.shrDigits; rw [if_neg hane, if_neg (by omega), List.length_drop]
    have lb : (Ubig.shrDigits b (b.length - 1)).length = 1 := by
      unfold Ubig.shrDigits; rw [if_neg hbne, if_neg (by omega), List.length_drop]; omega
    generalize Ubig.shrDigits a (b.length - 1) = a' at *
    generalize Ubig.shrDigits b (b.length - 1) = b' at *
    generalize x / (2 ^ Bits.bitsOf k) ^ (b.length - 1) = x' at *
    generalize y / (2 ^ Bits.bitsOf k) ^ (b.length - 1) = y' at *
    cases fuel with
    | zero => rfl
    | succ fuel =>
      obtain ⟨n, e1, s1⟩ := Ubig.add_correct sa (stores_one hw)
      obtain ⟨d, e2, s2⟩ := Ubig.add_correct sb (Ubig.stores_nil _)
      have hd : d = b' := Ubig.stores_unique s2 (by rwa [Nat.add_zero])
      have hn : 32 < n.length := by
        by_contra hc
        have := Ubig.length_lt_of_val_lt s1.1 sa.2 (show n.length < a'.length by omega)
        rw [s1.3, sa.3] at this
        omega
      have hy : 0 < y' := by
        rcases Nat.eq_zero_or_pos y' with e | e
        · have := Ubig.eq_nil_of_val_zero sb.2 (by rw [sb.3, e])
          rw [this] at lb; simp at lb
        · exact e
      rw [lehmerInner]
      simp only [e1, e2, hd, Option.bind_eq_bind, Option.bind_some, div_one_digit cut sb hy lb hn]
      rfl

-- `2^9600 + …` with 301 digits of 32 bits, and a number of two digits
example (l : List Nat) (h : l.length = 300) : 256 ≤ (l ++ [1]).length ∧ ([5, 7] : List Nat).length + 32 ≤ (l ++ [1]).length := by
  rw [List.length_append, h]; decide

/-- C181 is false of the program: `simplify` of a fraction with more than 32 (and fewer than 256) digits in numerator or
denominator reads outside its storage whenever the greatest common divisor fits in a digit, so for every such fraction
already in lowest terms. -/
theorem simplify_long_refuted {k fuel : Nat} (cut : Nat → Nat) (lehmer : List Nat → List Nat → Option (List Nat)) {a : SFrac}
    {n d : Nat} (hn : Stores (Bits.bitsOf k) a.num n) (hd : Stores (Bits.bitsOf k) a.den d) (hn0 : n ≠ 0) (h0 : d ≠ 0)
    (hla : a.num.length < 256) (hlb : a.den.length < 256) (hf : n + d + 1 < fuel) (hg : Nat.gcd n d < 2 ^ Bits.bitsOf k)
    (hl : 32 < a.num.length ∨ 32 < a.den.length) : a.simplify k fuel cut lehmer = none := by
  obtain ⟨r, g, e, st, hpos, -, -, hgg⟩ := simplify_gcd (lehmer := lehmer) hn hd h0 hla hlb hf
  rw [hgg hn0] at st hpos
  have h1 : r.length = 1 := by
    have hne := Ubig.stores_pos_ne st hpos
    have hlen := List.length_pos_iff.2 hne
    by_contra hc
    have := Ubig.val_pos_of_nlz (w := Bits.bitsOf k) st.2 hne
    rw [st.3] at this
    have h2 : (2 ^ Bits.bitsOf k) ^ 1 ≤ (2 ^ Bits.bitsOf k) ^ (r.length - 1) :=
      Nat.pow_le_pow_right (Nat.two_pow_pos _) (by omega)
    rw [Nat.pow_one] at h2
    omega
  unfold SFrac.simplify
  simp only [e, Option.bind_eq_bind, Option.bind_some]
  by_cases hl1 : 32 < a.num.length
  · rw [div_one_digit cut st hpos h1 hl1]; rfl
  · rw [div_one_digit cut st hpos h1 (hl.resolve_left hl1)]
    cases Ubig.div (Bits.bitsOf k) cut a.num r <;> rfl

-- one over `2^1024`, with 33 digits of 32 bits in the denominator
example : Stores 32 [1] 1 ∧ Stores 32 (List.replicate 32 0 ++ [1]) (2 ^ 1024) ∧ Bits.bitsOf 2 = 32 ∧
    32 < (List.replicate 32 0 ++ [1]).length ∧ Nat.gcd 1 (2 ^ 1024) < 2 ^ 32 := by
  refine ⟨stores_of (by decide) (by decide), ?_, by decide, by decide, by rw [Nat.gcd_one_left]; decide⟩
  have := stores_of (w := 32) (l := List.replicate 32 0 ++ [1]) (by decide) (by decide)
  rwa [show val 32 (List.replicate 32 0 ++ [1]) = 2 ^ 1024 by decide +kernel] at this

/-- C181: `simplify` of a signed fraction is that of its magnitude. -/
theorem rat_simplify_partial {k fuel : Nat} {cut : Nat → Nat} {lehmer : List Nat → List Nat → Option (List Nat)} {a : SRat}
    {n d : Nat} (hn : Stores (Bits.bitsOf k) a.num.num n) (hd : Stores (Bits.bitsOf k) a.num.den d) (h0 : d ≠ 0)
    (hla : a.num.num.length ≤ 32) (hlb : a.num.den.length ≤ 32) (hf : n + d + 1 < fuel) :
    ∃ r n' d', a.simplify k fuel cut lehmer = some r ∧ r.neg = a.neg ∧ Stores (Bits.bitsOf k) r.num.num n' ∧
      Stores (Bits.bitsOf k) r.num.den d' ∧ d' ≠ 0 ∧ (n' : ℚ) / d' = (n : ℚ) / d ∧ (n ≠ 0 → Nat.Coprime n' d') := by
  obtain ⟨r, n', d', e, h⟩ := simplify_partial (cut := cut) (lehmer := lehmer) hn hd h0 hla hlb hf
  exact ⟨⟨a.neg, r⟩, n', d', by unfold SRat.simplify; rw [e]; rfl, rfl, h⟩

example : SFrac.simplify 2 30 id (fun _ _ => none) ⟨[6], [4]⟩ = some ⟨[3], [2]⟩ := by decide +kernel

/-! ### C182: the integer part -/

/-- C182, what `trunc` computes for numerators of up to 32 digits: the integer part, or one more in exactly the cases of
`Ubig.div_characterised`. -/
theorem trunc_characterised {w : Nat} {cut : Nat → Nat} {a : SFrac} {n d : Nat} (hn : Stores w a.num n)
    (hd : Stores w a.den d) (h0 : d ≠ 0) (h32 : a.num.length ≤ 32) :
    let over := a.den.length ≤ a.num.length ∧
      d ≤ n % d + (n / d + 1) * (d % (2 ^ w) ^ (2 * a.den.length - a.num.length - 2))
    ∃ t v, a.trunc w cut = some t ∧ Stores w t v ∧
      (¬ over → (v : ℚ) ≤ (n : ℚ) / d ∧ (n : ℚ) / d < v + 1) ∧ (over → (v : ℚ) - 1 ≤ (n : ℚ) / d ∧ (n : ℚ) / d < v) := by
  intro over
  obtain ⟨t, e, st⟩ := Ubig.div_characterised (cut := cut) hn hd (Nat.pos_of_ne_zero h0) h32
  have h := Bigfloat.ufrac_trunc_correct ⟨n, d⟩ h0
  unfold Bigfloat.Spec.uvalue UFrac.trunc at h
  simp only at h
  refine ⟨t, _, e, st, ?_, ?_⟩
  · intro ho
    rw [if_neg ho, Nat.add_zero]
    exact h
  · intro ho
    rw [if_pos ho]
    push_cast
    exact ⟨by linarith [h.1], h.2⟩

/-- C182, when `split` is defined for numerators of up to 32 digits, and that it is exact then. -/
theorem split_characterised {w : Nat} {cut : Nat → Nat} (hw : 0 < w) {a : SFrac} {n d : Nat} (hn : Stores w a.num n)
    (hd : Stores w a.den d) (h0 : d ≠ 0) (h32 : a.num.length ≤ 32) :
    (a.split w cut = none ↔ a.den.length ≤ a.num.length ∧
      d ≤ n % d + (n / d + 1) * (d % (2 ^ w) ^ (2 * a.den.length - a.num.length - 2))) ∧
    ∀ t f, a.split w cut = some (t, f) → ∃ v p, Stores w t v ∧ IsFrac w f p ∧ (n : ℚ) / d = v + p ∧ 0 ≤ p ∧ p < 1 := by
  have hd0 := Nat.pos_of_ne_zero h0
  constructor
  · unfold SFrac.split
    rw [Option.map_eq_none_iff]
    exact Ubig.divmod_characterised hn hd hd0 h32
  · intro t f h
    unfold SFrac.split at h
    obtain ⟨⟨q, r⟩, e, hr⟩ := Option.map_eq_some_iff.1 h
    injection hr with h1 h2
    subst h1; subst h2
    obtain ⟨sr, -, hq⟩ := Ubig.divmod_partial hw hn hd hd0 e
    have := Bigfloat.ufrac_split_correct ⟨n, d⟩ h0
    refine ⟨_, Bigfloat.Spec.uvalue ⟨n % d, d⟩, (hq h32).1, ⟨_, _, sr, hd, h0, rfl⟩, this.1, Bigfloat.uvalue_nonneg _, this.2.1⟩

/-- C182 is false of the program: `trunc` of `5·2^96/(5·2^96+1)` is one and `split` subtracts beyond zero. -/
theorem trunc_refuted (cut : Nat → Nat) : SFrac.trunc 32 cut ⟨[0, 0, 0, 5], [1, 0, 0, 5]⟩ = some [1] ∧
    SFrac.split 32 cut ⟨[0, 0, 0, 5], [1, 0, 0, 5]⟩ = none := ⟨rfl, rfl⟩

example : SFrac.split 32 id ⟨[7], [2]⟩ = some ([3], ⟨[1], [2]⟩) := by decide +kernel

end ELC.Wide
