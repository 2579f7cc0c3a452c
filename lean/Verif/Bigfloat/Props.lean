import Verif.Bigfloat.Spec
import Verif.Arith.Props
import Mathlib.Tactic.Ring
import Mathlib.Tactic.FieldSimp
import Mathlib.Tactic.Linarith

/-! Properties C15 (unsigned fractions) and C16 (signed fractions). -/
namespace ELC.Bigfloat
open Spec

theorem cast_ne {n : Nat} (h : n ≠ 0) : (n : ℚ) ≠ 0 := by exact_mod_cast h

theorem finite_mul {a b : Nat} (ha : a ≠ 0) (hb : b ≠ 0) : a * b ≠ 0 := Nat.mul_ne_zero ha hb

theorem uvalue_nonneg (a : UFrac) : 0 ≤ uvalue a := by
  unfold uvalue
  apply div_nonneg <;> exact Nat.cast_nonneg _

/-! ### C15 -/

/-- C15: `==` compares the rationals. -/
theorem ufrac_eq_correct (a b : UFrac) (ha : Finite a) (hb : Finite b) :
    UFrac.eq a b = true ↔ uvalue a = uvalue b := by
  unfold UFrac.eq uvalue
  rw [div_eq_div_iff (cast_ne ha) (cast_ne hb), beq_iff_eq]
  norm_cast

theorem lt_iff (a b : UFrac) (ha : Finite a) (hb : Finite b) :
    a.num * b.den < b.num * a.den ↔ uvalue a < uvalue b := by
  unfold uvalue
  have h1 : (0 : ℚ) < a.den := by exact_mod_cast Nat.pos_of_ne_zero ha
  have h2 : (0 : ℚ) < b.den := by exact_mod_cast Nat.pos_of_ne_zero hb
  rw [div_lt_div_iff₀ h1 h2]
  norm_cast

/-- C15: `<=>` compares the rationals. -/
theorem ufrac_cmp_correct (a b : UFrac) (ha : Finite a) (hb : Finite b) :
    (UFrac.cmp a b = .lt ↔ uvalue a < uvalue b) ∧ (UFrac.cmp a b = .gt ↔ uvalue b < uvalue a) ∧
    (UFrac.cmp a b = .eq ↔ uvalue a = uvalue b) := by
  refine ⟨?_, ?_, ?_⟩
  · rw [← lt_iff a b ha hb]; exact Nat.compare_eq_lt
  · rw [← lt_iff b a hb ha]; exact Nat.compare_eq_gt
  · rw [← ufrac_eq_correct a b ha hb]; unfold UFrac.eq; rw [beq_iff_eq]; exact Nat.compare_eq_eq

example : UFrac.cmp ⟨1, 3⟩ ⟨2, 6⟩ = .eq ∧ Finite ⟨1, 3⟩ ∧ Finite ⟨2, 6⟩ := by
  refine ⟨by decide, ?_, ?_⟩ <;> simp [Spec.Finite]

/-- C15: `+` is the rational sum. -/
theorem ufrac_add_correct (a b : UFrac) (ha : Finite a) (hb : Finite b) :
    uvalue (a.add b) = uvalue a + uvalue b ∧ Finite (a.add b) := by
  refine ⟨?_, finite_mul ha hb⟩
  unfold uvalue UFrac.add
  have := cast_ne ha; have := cast_ne hb
  push_cast
  field_simp

theorem uvalue_sub_aux (m n d : Nat) (hd : d ≠ 0) :
    uvalue ⟨m - n, d⟩ = max (uvalue ⟨m, d⟩ - uvalue ⟨n, d⟩) 0 := by
  unfold uvalue
  have hd' : (0 : ℚ) < d := by exact_mod_cast Nat.pos_of_ne_zero hd
  simp only
  rw [div_sub_div_same]
  by_cases h : n ≤ m
  · rw [Nat.cast_sub h, max_eq_left]
    apply div_nonneg _ hd'.le
    have : (n : ℚ) ≤ m := by exact_mod_cast h
    linarith
  · rw [Nat.sub_eq_zero_of_le (by omega), max_eq_right]
    · simp
    · apply div_nonpos_of_nonpos_of_nonneg _ hd'.le
      have : (m : ℚ) ≤ n := by exact_mod_cast (by omega : m ≤ n)
      linarith

/-- C15: `-` is the rational difference, stopping at zero. -/
theorem ufrac_sub_correct (a b : UFrac) (ha : Finite a) (hb : Finite b) :
    uvalue (a.sub b) = max (uvalue a - uvalue b) 0 ∧ Finite (a.sub b) := by
  refine ⟨?_, finite_mul ha hb⟩
  unfold UFrac.sub
  rw [uvalue_sub_aux _ _ _ (finite_mul ha hb)]
  congr 1
  unfold uvalue
  have := cast_ne ha; have := cast_ne hb
  push_cast
  field_simp

example : UFrac.sub ⟨1, 2⟩ ⟨1, 3⟩ = ⟨1, 6⟩ := by decide

/-- C15: `*` is the rational product. -/
theorem ufrac_mul_correct (a b : UFrac) (ha : Finite a) (hb : Finite b) :
    uvalue (a.mul b) = uvalue a * uvalue b ∧ Finite (a.mul b) := by
  refine ⟨?_, finite_mul ha hb⟩
  unfold uvalue UFrac.mul
  push_cast
  rw [div_mul_div_comm]

/-- C15: `/` by a non-zero fraction is the rational quotient. -/
theorem ufrac_div_correct (a b : UFrac) (ha : Finite a) (hb : Finite b) (h0 : uvalue b ≠ 0) :
    uvalue (a.div b) = uvalue a / uvalue b ∧ Finite (a.div b) := by
  have h0' : b.num ≠ 0 := by
    intro h; apply h0; unfold uvalue; rw [h]; simp
  refine ⟨?_, finite_mul ha h0'⟩
  unfold uvalue UFrac.div
  have := cast_ne ha; have := cast_ne hb; have := cast_ne h0'
  push_cast
  field_simp

/-- C15: the forms taking an integer. -/
theorem ufrac_int_forms_correct (a : UFrac) (ha : Finite a) (n : Nat) (z : Int) :
    uvalue (a.addNat n) = uvalue a + n ∧ uvalue (a.subNat n) = max (uvalue a - n) 0 ∧
    uvalue (a.addInt z) = max (uvalue a + z) 0 ∧ uvalue (a.subInt z) = max (uvalue a - z) 0 ∧
    uvalue (a.mulNat n) = uvalue a * n ∧ (n ≠ 0 → uvalue (a.divNat n) = uvalue a / n) := by
  have hd := cast_ne ha
  have hadd : ∀ n, uvalue (a.addNat n) = uvalue a + n := by
    intro n; unfold uvalue UFrac.addNat; push_cast; field_simp
  have hsub : ∀ n, uvalue (a.subNat n) = max (uvalue a - n) 0 := by
    intro n
    unfold UFrac.subNat
    rw [uvalue_sub_aux _ _ _ ha]
    congr 1
    unfold uvalue; push_cast; field_simp
  have hnn := uvalue_nonneg a
  refine ⟨hadd n, hsub n, ?_, ?_, ?_, ?_⟩
  · unfold UFrac.addInt
    split
    · next h =>
      rw [hsub]
      have : (z.natAbs : ℚ) = -z := by
        have : (z.natAbs : ℤ) = -z := by omega
        rw [← Int.cast_natCast, this]; simp
      rw [this]; congr 1; ring
    · next h =>
      rw [hadd]
      have : (z.natAbs : ℚ) = z := by
        have : (z.natAbs : ℤ) = z := by omega
        rw [← Int.cast_natCast, this]
      have hz : (0 : ℚ) ≤ z := by exact_mod_cast (by omega : 0 ≤ z)
      rw [this, max_eq_left (by linarith)]
  · unfold UFrac.subInt
    split
    · next h =>
      rw [hadd]
      have : (z.natAbs : ℚ) = -z := by
        have : (z.natAbs : ℤ) = -z := by omega
        rw [← Int.cast_natCast, this]; simp
      have hz : (z : ℚ) ≤ 0 := by exact_mod_cast (by omega : z ≤ 0)
      rw [this, max_eq_left (by linarith)]; ring
    · next h =>
      rw [hsub]
      have : (z.natAbs : ℚ) = z := by
        have : (z.natAbs : ℤ) = z := by omega
        rw [← Int.cast_natCast, this]
      rw [this]
  · unfold uvalue UFrac.mulNat; push_cast; field_simp
  · intro hn
    have := cast_ne hn
    unfold uvalue UFrac.divNat; push_cast; field_simp

/-- C15: the assignments taking an integer change the number as they should. -/
theorem ufrac_int_assign_correct (a : UFrac) (ha : Finite a) (n : Nat) (z : Int) :
    uvalue (a.addAssignNat n) = uvalue a + n ∧ uvalue (a.subAssignNat n) = max (uvalue a - n) 0 ∧
    uvalue (a.addAssignInt z) = max (uvalue a + z) 0 ∧ uvalue (a.subAssignInt z) = max (uvalue a - z) 0 ∧
    uvalue (a.mulAssignNat n) = uvalue a * n ∧ (n ≠ 0 → uvalue (a.divAssignNat n) = uvalue a / n) ∧
    Finite (a.addAssignInt z) ∧ Finite (a.subAssignInt z) := by
  obtain ⟨h1, h2, h3, h4, h5, h6⟩ := ufrac_int_forms_correct a ha n z
  refine ⟨h1, h2, h3, h4, h5, h6, ?_, ?_⟩
  · unfold UFrac.addAssignInt; split <;> exact ha
  · unfold UFrac.subAssignInt; split <;> exact ha

example : (⟨7, 2⟩ : UFrac).addAssignInt (-3) = ⟨1, 2⟩ ∧ Finite ⟨7, 2⟩ := ⟨by decide, by unfold Spec.Finite; decide⟩

/-- C15: comparing with an integer. -/
theorem ufrac_cmp_int_correct (a : UFrac) (ha : Finite a) (z : Int) :
    (a.eqInt z = true ↔ uvalue a = z) ∧ (a.cmpInt z = .lt ↔ uvalue a < z) ∧
    (a.cmpInt z = .gt ↔ z < uvalue a) := by
  have hnn := uvalue_nonneg a
  by_cases h : z < 0
  · have hz : (z : ℚ) < 0 := by exact_mod_cast h
    simp only [UFrac.eqInt, UFrac.cmpInt, h, if_true]
    refine ⟨?_, ?_, ?_⟩
    · constructor
      · intro h; cases h
      · intro h'; linarith
    · constructor
      · intro h; cases h
      · intro h'; linarith
    · constructor
      · intro _; linarith
      · intro _; trivial
  · have h1 := ufrac_eq_correct a ⟨z.natAbs, 1⟩ ha (by simp [Spec.Finite])
    have h2 := ufrac_cmp_correct a ⟨z.natAbs, 1⟩ ha (by simp [Spec.Finite])
    have hv : uvalue ⟨z.natAbs, 1⟩ = z := by
      unfold uvalue
      have : (z.natAbs : ℤ) = z := by omega
      simp only [Nat.cast_one, div_one]
      rw [← Int.cast_natCast, this]
    rw [hv] at h1 h2
    simp only [UFrac.eqInt, UFrac.cmpInt, h, if_false]
    unfold UFrac.eq at h1
    unfold UFrac.cmp at h2
    simp only [Nat.mul_one] at h1 h2
    exact ⟨h1, h2.1, h2.2.1⟩

/-- C15: `+=`, `-=` and `*=` give the value of the plain operator, whether or not the two operands are
the same object. -/
theorem ufrac_assign_correct (same : Bool) (a b : UFrac) (h : same = true → a = b) :
    UFrac.addAssign same a b = a.add b ∧ UFrac.subAssign same a b = a.sub b ∧
    UFrac.mulAssign same a b = a.mul b := by
  cases same
  · exact ⟨rfl, rfl, rfl⟩
  · have := h rfl; subst this
    exact ⟨rfl, rfl, rfl⟩

/-- C15, the part of `/=` that holds: the operands are different objects. -/
theorem ufrac_div_assign_partial (a b : UFrac) : UFrac.divAssign false a b = a.div b := rfl

/-- C15 is false of the program: `x/=x` is not one unless the denominator of `x` is one; half divided by itself
stays a half. -/
theorem ufrac_div_assign_refuted : UFrac.divAssign true ⟨1, 2⟩ ⟨1, 2⟩ = ⟨2, 4⟩ ∧
    uvalue ⟨2, 4⟩ = uvalue ⟨1, 2⟩ ∧ uvalue ⟨2, 4⟩ ≠ 1 := by
  refine ⟨by decide, ?_, ?_⟩ <;> norm_num [uvalue]

/-- C15, what `x/=x` computes: one over the denominator. -/
theorem ufrac_div_assign_self (a : UFrac) (ha : Finite a) (h0 : uvalue a ≠ 0) :
    uvalue (UFrac.divAssign true a a) = 1 / a.den := by
  have h0' : a.num ≠ 0 := by
    intro h; apply h0; unfold uvalue; rw [h]; simp
  unfold uvalue UFrac.divAssign UFrac.seen
  have := cast_ne ha; have := cast_ne h0'
  push_cast
  simp only [if_true]
  push_cast
  field_simp

/-- C15: `trunc` is the integer part. -/
theorem ufrac_trunc_correct (a : UFrac) (ha : Finite a) :
    (a.trunc : ℚ) ≤ uvalue a ∧ uvalue a < a.trunc + 1 := by
  unfold uvalue UFrac.trunc
  have hd : (0 : ℚ) < a.den := by exact_mod_cast Nat.pos_of_ne_zero ha
  rw [le_div_iff₀ hd, div_lt_iff₀ hd]
  constructor
  · exact_mod_cast Nat.div_mul_le_self _ _
  · have := Nat.lt_div_mul_add (a := a.num) (Nat.pos_of_ne_zero ha)
    have h2 : a.num < (a.num / a.den + 1) * a.den := by rw [Nat.add_mul]; omega
    exact_mod_cast h2

/-- C15: `split` and `trunc_with_sub` divide a fraction into its integer part and a fraction below one. -/
theorem ufrac_split_correct (a : UFrac) (ha : Finite a) :
    uvalue a = a.split.1 + uvalue a.split.2 ∧ uvalue a.split.2 < 1 ∧ a.split.1 = a.trunc ∧
    Finite a.split.2 := by
  have hd : (0 : ℚ) < a.den := by exact_mod_cast Nat.pos_of_ne_zero ha
  refine ⟨?_, ?_, rfl, ha⟩
  · unfold uvalue UFrac.split
    simp only
    rw [div_eq_iff hd.ne', add_mul, div_mul_cancel₀ _ hd.ne']
    have := Nat.div_add_mod a.num a.den
    exact_mod_cast (by rw [Nat.mul_comm]; exact this.symm)
  · unfold uvalue UFrac.split
    simp only
    rw [div_lt_iff₀ hd, one_mul]
    exact_mod_cast Nat.mod_lt _ (Nat.pos_of_ne_zero ha)

/-- What `simplify` divides by: a common divisor. -/
theorem simplify_divisor (a : UFrac) (ha : Finite a) : ∃ g, 0 < g ∧ g ∣ a.num ∧ g ∣ a.den ∧ a.simplify = ⟨a.num / g, a.den / g⟩ ∧
    (a.num ≠ 0 → g = Nat.gcd a.num a.den) := by
  by_cases h : a.num = 0
  · obtain ⟨m, h1, h2, h3⟩ := Arith.binary_gcd_zero_characterised ha
    refine ⟨m, by omega, by rw [h]; exact dvd_zero _, ⟨_, by rw [Nat.mul_comm]; exact h2⟩, ?_, fun h' => absurd h h'⟩
    unfold UFrac.simplify
    simp only [h, h3, Option.getD_some]
  · refine ⟨Nat.gcd a.num a.den, Nat.gcd_pos_of_pos_right _ (Nat.pos_of_ne_zero ha), Nat.gcd_dvd_left _ _, Nat.gcd_dvd_right _ _,
      ?_, fun _ => rfl⟩
    unfold UFrac.simplify
    simp only [Arith.binary_gcd_partial (Or.inl h), Option.getD_some]

/-- C15: `simplify` keeps the value, and leaves no common factor unless the number is zero. -/
theorem ufrac_simplify_correct (a : UFrac) (ha : Finite a) :
    uvalue a.simplify = uvalue a ∧ (a.num ≠ 0 → Nat.Coprime a.simplify.num a.simplify.den) ∧ Finite a.simplify := by
  obtain ⟨g, hpos, ⟨x, hx⟩, ⟨y, hy⟩, he, hg⟩ := simplify_divisor a ha
  have h1 : a.num / g = x := Nat.div_eq_of_eq_mul_right hpos hx
  have h2 : a.den / g = y := Nat.div_eq_of_eq_mul_right hpos hy
  have hd : y ≠ 0 := fun h => ha (by rw [hy, h, Nat.mul_zero])
  rw [h1, h2] at he
  rw [he]
  refine ⟨?_, ?_, hd⟩
  · unfold uvalue
    simp only
    rw [div_eq_div_iff (cast_ne hd) (cast_ne ha)]
    have : x * a.den = a.num * y := by
      rw [hx, hy]; ring
    exact_mod_cast this
  · intro h
    have := hg h
    show Nat.Coprime x y
    rw [← h1, ← h2, this]
    exact Nat.coprime_div_gcd_div_gcd (this ▸ hpos)

/-- C15 fails in one corner: `0/4` is not brought to lowest terms. -/
theorem ufrac_simplify_refuted : UFrac.simplify ⟨0, 4⟩ = ⟨0, 4⟩ ∧ ¬ Nat.Coprime 0 4 := by
  refine ⟨by decide +kernel, by decide⟩

example : UFrac.simplify ⟨6, 4⟩ = ⟨3, 2⟩ := by decide +kernel

/-- C15: what `simplify` leaves of a zero: the power of two in its denominator. -/
theorem ufrac_simplify_zero_characterised (k m : Nat) (hm : m % 2 = 1) : UFrac.simplify ⟨0, 2 ^ k * m⟩ = ⟨0, 2 ^ k⟩ := by
  have hp : 0 < 2 ^ k := Nat.two_pow_pos k
  have hne : 2 ^ k * m ≠ 0 := Nat.mul_ne_zero (by omega) (by omega)
  obtain ⟨m', h1, h2, h3⟩ := Arith.binary_gcd_zero_characterised hne
  have hodd : ∀ {j : Nat}, j % 2 = 1 → ∀ n, Nat.Coprime j (2 ^ n) := fun {j} hj n =>
    Nat.Coprime.pow_right n (show Nat.gcd j 2 = 1 by rw [Nat.gcd_comm, Nat.gcd_rec, hj]; rfl)
  have e1 : m ∣ m' := (hodd hm _).dvd_of_dvd_mul_left (h2 ▸ Nat.dvd_mul_left m (2 ^ k))
  have e2 : m' ∣ m := (hodd h1 k).dvd_of_dvd_mul_left (h2 ▸ Nat.dvd_mul_left m' _)
  have e : m' = m := Nat.dvd_antisymm e2 e1
  unfold UFrac.simplify
  simp only [h3, Option.getD_some, e, Nat.zero_div]
  rw [Nat.mul_div_cancel _ (by omega)]

/-- C15: `simplify` brings a number to lowest terms exactly when it is not zero or its denominator is odd. -/
theorem ufrac_simplify_characterised (a : UFrac) (ha : Finite a) :
    Nat.Coprime a.simplify.num a.simplify.den ↔ a.num ≠ 0 ∨ a.den % 2 = 1 := by
  by_cases h : a.num = 0
  · obtain ⟨m, h1, h2⟩ := Arith.trailing_spec a.den ha
    have : a = ⟨0, 2 ^ Arith.trailing a.den * m⟩ := by
      rw [← h2, ← h]
    generalize Arith.trailing a.den = k at this h2
    rw [this, ufrac_simplify_zero_characterised k m h1]
    simp only [ne_eq, not_true_eq_false, false_or, Nat.coprime_zero_left]
    cases k with
    | zero => simpa using h1
    | succ k =>
      constructor
      · intro h'
        exact absurd h' (by have := Nat.two_pow_pos k; rw [Nat.pow_succ]; omega)
      · intro h'
        rw [Nat.pow_succ, Nat.mul_assoc, Nat.mul_left_comm, Nat.mul_mod_right] at h'
        cases h'
  · exact ⟨fun _ => Or.inl h, fun _ => (ufrac_simplify_correct a ha).2.1 h⟩

example : UFrac.simplify ⟨0, 12⟩ = ⟨0, 4⟩ ∧ UFrac.simplify ⟨0, 15⟩ = ⟨0, 1⟩ :=
  ⟨ufrac_simplify_zero_characterised 2 3 rfl, ufrac_simplify_zero_characterised 0 15 rfl⟩

/-- C15: `reciprocal`. -/
theorem ufrac_reciprocal_correct (a : UFrac) : uvalue a.reciprocal = (uvalue a)⁻¹ := by
  unfold uvalue UFrac.reciprocal; rw [inv_div]

/-- Equal fractions in different terms have different hashes (a finding beyond C15): the hash looks at the
numerator and the denominator as stored. -/
theorem ufrac_hash_refuted : UFrac.eq ⟨1, 2⟩ ⟨2, 4⟩ = true ∧
    UFrac.hash 64 id ⟨1, 2⟩ ≠ UFrac.hash 64 id ⟨2, 4⟩ := by decide

/-! ### C16 -/

theorem neg_uvalue_eq_zero {a : UFrac} (ha : Finite a) : uvalue a = 0 ↔ a.num = 0 := by
  unfold uvalue
  rw [div_eq_zero_iff]
  constructor
  · rintro (h | h)
    · exact_mod_cast h
    · exact absurd h (cast_ne ha)
  · intro h; left; rw [h]; simp

theorem not_gt_iff (a b : UFrac) (ha : Finite a) (hb : Finite b) :
    ¬ UFrac.cmp a b = .gt ↔ uvalue a ≤ uvalue b := by
  rw [(ufrac_cmp_correct a b ha hb).2.1, not_lt]

/-- C16: `+`, every combination of signs. -/
theorem frac_add_correct (a b : Frac) (ha : Finite a.num) (hb : Finite b.num) :
    value (a.add b) = value a + value b ∧ Finite (a.add b).num := by
  unfold Frac.add
  split
  · next h =>
    have h : a.neg = b.neg := by simpa using h
    refine ⟨?_, (ufrac_add_correct _ _ ha hb).2⟩
    unfold value
    simp only [(ufrac_add_correct _ _ ha hb).1, ← h]
    cases a.neg <;> simp; ring
  · next h =>
    split
    · next h1 =>
      have h1 := (ufrac_cmp_correct _ _ ha hb).2.1.1 h1
      refine ⟨?_, (ufrac_sub_correct _ _ ha hb).2⟩
      unfold value
      simp only [(ufrac_sub_correct _ _ ha hb).1, max_eq_left (by linarith : 0 ≤ uvalue a.num - uvalue b.num)]
      cases hA : a.neg <;> cases hB : b.neg <;> simp [hA, hB] at h ⊢ <;> ring
    · next h1 =>
      have h1 := (not_gt_iff _ _ ha hb).1 h1
      refine ⟨?_, (ufrac_sub_correct _ _ hb ha).2⟩
      unfold value
      simp only [(ufrac_sub_correct _ _ hb ha).1, max_eq_left (by linarith : 0 ≤ uvalue b.num - uvalue a.num)]
      cases hA : a.neg <;> cases hB : b.neg <;> simp [hA, hB] at h ⊢ <;> ring

theorem sub_eq_add_neg' (a b : Frac) : a.sub b = a.add b.neg' := by
  unfold Frac.sub Frac.add Frac.neg'
  cases a.neg <;> cases b.neg <;> rfl

theorem value_neg (a : Frac) : value a.neg' = -value a := by
  unfold value Frac.neg'; cases a.neg <;> simp

/-- A fraction without sign keeps its value, an integer too, and neither becomes a negative zero. -/
theorem frac_of_correct (u : UFrac) (z : Int) : value (.ofUFrac u) = uvalue u ∧ Normal (.ofUFrac u) ∧
    value (.ofInt z) = z ∧ Normal (.ofInt z) := by
  refine ⟨rfl, fun _ => rfl, ?_, ?_⟩
  · unfold value Frac.ofInt UFrac.ofNat uvalue
    by_cases h : z < 0
    · have e : (z.natAbs : ℤ) = -z := by omega
      have e' : (z.natAbs : ℚ) = -z := by
        rw [← Int.cast_natCast, e, Int.cast_neg]
      simp [h, e']
    · have e : (z.natAbs : ℤ) = z := by omega
      have e' : (z.natAbs : ℚ) = z := by rw [← Int.cast_natCast, e]
      simp [h, e']
  · intro h
    have : z = 0 := by simpa [Frac.ofInt, UFrac.ofNat] using h
    simp [Frac.ofInt, this]

/-- C16: unary `-`. -/
theorem frac_neg_correct (a : Frac) : value a.neg' = -value a := value_neg a

/-- C16: `-`, every combination of signs. -/
theorem frac_sub_correct (a b : Frac) (ha : Finite a.num) (hb : Finite b.num) :
    value (a.sub b) = value a - value b ∧ Finite (a.sub b).num := by
  rw [sub_eq_add_neg', sub_eq_add_neg, ← value_neg]
  exact frac_add_correct a b.neg' ha hb

example : Frac.sub ⟨false, ⟨1, 2⟩⟩ ⟨false, ⟨3, 4⟩⟩ = ⟨true, ⟨2, 8⟩⟩ := by decide

/-- C16: `*`, every combination of signs. -/
theorem frac_mul_correct (a b : Frac) (ha : Finite a.num) (hb : Finite b.num) :
    value (a.mul b) = value a * value b ∧ Finite (a.mul b).num := by
  refine ⟨?_, (ufrac_mul_correct _ _ ha hb).2⟩
  unfold Frac.mul value
  simp only [(ufrac_mul_correct _ _ ha hb).1]
  cases a.neg <;> cases b.neg <;> simp

/-- C16: `/`, every combination of signs. -/
theorem frac_div_correct (a b : Frac) (ha : Finite a.num) (hb : Finite b.num) (h0 : value b ≠ 0) :
    value (a.div b) = value a / value b ∧ Finite (a.div b).num := by
  have h0' : uvalue b.num ≠ 0 := by
    intro h; apply h0; unfold value; rw [h]; simp
  refine ⟨?_, (ufrac_div_correct _ _ ha hb h0').2⟩
  unfold Frac.div value
  simp only [(ufrac_div_correct _ _ ha hb h0').1]
  cases a.neg <;> cases b.neg <;> simp [neg_div, div_neg]

/-- C16: the compound assignments between different objects give the plain operator's result. -/
theorem frac_assign_correct (a b : Frac) : a.addAssign b = a.add b ∧ a.subAssign b = a.sub b ∧
    a.mulAssign b = a.mul b ∧ a.divAssign b = a.div b := by
  refine ⟨rfl, ?_, rfl, rfl⟩
  unfold Frac.subAssign Frac.sub
  cases a.neg <;> cases b.neg <;> rfl

/-- C16, unsigned operands: `*=` and `/=` are exact, `+=` is exact for a non-negative left side. -/
theorem frac_assign_unsigned_partial (a : Frac) (b : UFrac) (ha : Finite a.num) (hb : Finite b) :
    value (a.mulAssignUnsigned b) = value a * uvalue b ∧
    (uvalue b ≠ 0 → value (a.divAssignUnsigned b) = value a / uvalue b) ∧
    (a.neg = false → value (a.addAssignUnsigned b) = value a + uvalue b) := by
  refine ⟨?_, ?_, ?_⟩
  · have := (ufrac_mul_correct _ _ ha hb).1
    unfold Frac.mulAssignUnsigned value
    simp only [(ufrac_assign_correct false a.num b (by simp)).2.2, this]
    cases a.neg <;> simp
  · intro h0
    have := (ufrac_div_correct _ _ ha hb h0).1
    unfold Frac.divAssignUnsigned value
    simp only [ufrac_div_assign_partial, this]
    cases a.neg <;> simp [neg_div]
  · intro hn
    have := (ufrac_add_correct _ _ ha hb).1
    unfold Frac.addAssignUnsigned value
    simp only [(ufrac_assign_correct false a.num b (by simp)).1, this, hn]
    simp

/-- C16 is false of the program: adding an unsigned number to a negative one in place subtracts it;
`-5 += 3` is `-8`. -/
theorem frac_add_assign_unsigned_refuted (a : Frac) (b : UFrac) (ha : Finite a.num) (hb : Finite b)
    (hn : a.neg = true) : value (a.addAssignUnsigned b) = value a - uvalue b := by
  have := (ufrac_add_correct _ _ ha hb).1
  unfold Frac.addAssignUnsigned value
  simp only [(ufrac_assign_correct false a.num b (by simp)).1, this, hn]
  simp; ring

example : Frac.addAssignUnsigned ⟨true, ⟨5, 1⟩⟩ ⟨3, 1⟩ = ⟨true, ⟨8, 1⟩⟩ := by decide

/-- C16, the part that holds: on everything but a negative zero, `==` compares the rationals. -/
theorem frac_eq_partial (a b : Frac) (ha : Finite a.num) (hb : Finite b.num) (na : Normal a)
    (nb : Normal b) : a.eq b = true ↔ value a = value b := by
  have p1 := uvalue_nonneg a.num
  have p2 := uvalue_nonneg b.num
  have z1 := neg_uvalue_eq_zero ha
  have z2 := neg_uvalue_eq_zero hb
  unfold Normal at na nb
  unfold Frac.eq value
  cases hA : a.neg <;> cases hB : b.neg <;>
    simp only [hA, hB, bne_self_eq_false, Bool.false_eq_true, if_false, if_true,
      ufrac_eq_correct _ _ ha hb, neg_inj] at na nb ⊢
  · have : uvalue b.num ≠ 0 := fun h => by have := nb (z2.1 h); cases this
    simp
    intro h
    apply this; linarith
  · have : uvalue a.num ≠ 0 := fun h => by have := na (z1.1 h); cases this
    simp
    intro h
    apply this; linarith

/-- C16, the part that holds: on everything but a negative zero, `<=>` compares the rationals. -/
theorem frac_cmp_partial (a b : Frac) (ha : Finite a.num) (hb : Finite b.num) (na : Normal a)
    (nb : Normal b) : (a.cmp b = .lt ↔ value a < value b) ∧ (a.cmp b = .gt ↔ value b < value a) := by
  have p1 := uvalue_nonneg a.num
  have p2 := uvalue_nonneg b.num
  have z1 := neg_uvalue_eq_zero ha
  have z2 := neg_uvalue_eq_zero hb
  have hc := ufrac_cmp_correct _ _ ha hb
  have hs : ∀ o : Ordering, (o.swap = .lt ↔ o = .gt) ∧ (o.swap = .gt ↔ o = .lt) := by
    intro o; cases o <;> decide
  unfold Normal at na nb
  unfold Frac.cmp value
  cases hA : a.neg <;> cases hB : b.neg <;>
    simp only [hA, hB, bne_self_eq_false, Bool.false_eq_true, if_false, if_true, hs,
      hc.1, hc.2.1, neg_lt_neg_iff] at na nb ⊢
  · trivial
  · have : uvalue b.num ≠ 0 := fun h => by have := nb (z2.1 h); cases this
    have : 0 < uvalue b.num := lt_of_le_of_ne p2 (Ne.symm this)
    simp
    constructor <;> linarith
  · have : uvalue a.num ≠ 0 := fun h => by have := na (z1.1 h); cases this
    have : 0 < uvalue a.num := lt_of_le_of_ne p1 (Ne.symm this)
    simp
    constructor <;> linarith
  · trivial

example : Normal ⟨true, ⟨1, 2⟩⟩ ∧ Normal ⟨false, ⟨0, 2⟩⟩ := by simp [Normal]

/-- C16 is false of the program: for every non-negative `x`, `x-x` is a negative zero and `x-x==0` is
false. -/
theorem frac_sub_self_refuted (a : Frac) (hn : a.neg = false) :
    (a.sub a).eq (Frac.ofInt 0) = false ∧ (a.sub a).neg = true := by
  have h : UFrac.cmp a.num a.num ≠ .gt := by
    unfold UFrac.cmp
    intro h; have := Nat.compare_eq_gt.1 h; omega
  have : (a.sub a).neg = true := by simp [Frac.sub, h, hn]
  refine ⟨?_, this⟩
  unfold Frac.eq
  rw [this]; rfl

/-- C16: `x-x` has value zero, and `!(x-x)` is true. -/
theorem frac_sub_self_value (a : Frac) (ha : Finite a.num) :
    value (a.sub a) = 0 ∧ (a.sub a).num.isZero = true := by
  have := frac_sub_correct a a ha ha
  have h0 : value (a.sub a) = 0 := by rw [this.1]; ring
  refine ⟨h0, ?_⟩
  unfold UFrac.isZero
  rw [beq_iff_eq, ← neg_uvalue_eq_zero this.2]
  unfold value at h0
  split at h0 <;> linarith

/-- C16: `trunc` rounds towards zero and `split` gives back the value. -/
theorem frac_split_correct (a : Frac) (ha : Finite a.num) :
    value a = (a.split.1 : ℚ) + value a.split.2 ∧ |value a.split.2| < 1 ∧ a.split.1 = a.trunc := by
  have h := ufrac_split_correct a.num ha
  have p := uvalue_nonneg a.num.split.2
  refine ⟨?_, ?_, rfl⟩
  · unfold Frac.split Frac.trunc value
    simp only
    rw [h.1, ← h.2.2.1]
    cases a.neg <;> simp; ring
  · unfold Frac.split value
    simp only
    rw [abs_lt]
    cases a.neg <;> simp <;> constructor <;> linarith [h.2.1]

/-- C16: `simplify` and `reciprocal`. -/
theorem frac_simplify_reciprocal_correct (a : Frac) (ha : Finite a.num) :
    value a.simplify = value a ∧ value a.reciprocal = (value a)⁻¹ := by
  constructor
  · unfold Frac.simplify value
    simp only [(ufrac_simplify_correct a.num ha).1]
  · unfold Frac.reciprocal value
    simp only [ufrac_reciprocal_correct]
    cases a.neg <;> simp

/-- **C16, what `==` and `<=>` do**, for all finite numbers: they are those of the rationals, with a negative zero as another number
between the negative ones and zero. -/
theorem frac_order_characterised (a b : Frac) (ha : Finite a.num) (hb : Finite b.num) :
    (a.eq b = true ↔ value a = value b ∧ (Normal a ↔ Normal b)) ∧
    (a.cmp b = .lt ↔ value a < value b ∨ value a = value b ∧ ¬ Normal a ∧ Normal b) ∧
    (a.cmp b = .gt ↔ value b < value a ∨ value a = value b ∧ Normal a ∧ ¬ Normal b) := by
  have p1 := uvalue_nonneg a.num
  have p2 := uvalue_nonneg b.num
  have z1 := neg_uvalue_eq_zero ha
  have z2 := neg_uvalue_eq_zero hb
  have hc := ufrac_cmp_correct _ _ ha hb
  have he := ufrac_eq_correct _ _ ha hb
  have hs : ∀ o : Ordering, (o.swap = .lt ↔ o = .gt) ∧ (o.swap = .gt ↔ o = .lt) := by
    intro o; cases o <;> decide
  unfold Normal Frac.eq Frac.cmp value
  rw [← z1, ← z2]
  cases hA : a.neg <;> cases hB : b.neg <;>
    simp only [bne_self_eq_false, Bool.false_eq_true, if_false, if_true, hs, he, hc.1, hc.2, neg_inj, Bool.true_bne, Bool.false_bne,
      Bool.not_true, Bool.not_false, implies_true, reduceCtorEq, imp_false, not_true, not_false_eq_true, and_true, and_false, or_false,
      true_iff, iff_true, false_iff, true_and, false_and, not_not, neg_lt_neg_iff]
  · refine ⟨?_, ?_, ?_⟩
    · rintro ⟨h1, h2⟩; apply h2; linarith
    · intro h; linarith
    · by_cases h : uvalue b.num = 0
      · rcases p1.eq_or_lt with h1 | h1
        · right; exact ⟨by rw [← h1, h]; simp, h⟩
        · left; rw [h]; simpa using h1
      · left
        have := lt_of_le_of_ne p2 (Ne.symm h)
        linarith
  · refine ⟨?_, ?_, ?_⟩
    · rintro ⟨h1, h2⟩; apply h2; linarith
    · by_cases h : uvalue a.num = 0
      · rcases p2.eq_or_lt with h1 | h1
        · right; exact ⟨by rw [← h1, h]; simp, h⟩
        · left; rw [h]; simpa using h1
      · left
        have := lt_of_le_of_ne p1 (Ne.symm h)
        linarith
    · intro h; linarith
  · refine ⟨?_, ?_, ?_⟩
    · constructor
      · intro h; rw [h]; exact ⟨rfl, Iff.rfl⟩
      · exact fun h => h.1
    · constructor
      · exact fun h => Or.inl h
      · rintro (h | ⟨h1, h2, h3⟩)
        · exact h
        · exact absurd (h1 ▸ h2) h3
    · constructor
      · exact fun h => Or.inl h
      · rintro (h | ⟨h1, h2, h3⟩)
        · exact h
        · exact absurd (h1.symm ▸ h3) h2

-- three thirds minus one is a negative zero, below zero and above every negative number
example : Frac.cmp (Frac.sub ⟨false, ⟨3, 3⟩⟩ ⟨false, ⟨1, 1⟩⟩) (Frac.ofInt 0) = .lt ∧
    Frac.cmp (Frac.sub ⟨false, ⟨3, 3⟩⟩ ⟨false, ⟨1, 1⟩⟩) ⟨true, ⟨1, 1000⟩⟩ = .gt := by decide

theorem not_normal_iff {r : Frac} (hr : Finite r.num) : ¬ Normal r ↔ value r = 0 ∧ r.neg = true := by
  have z := neg_uvalue_eq_zero hr
  unfold Normal value
  rw [← z]
  cases r.neg <;> simp

theorem neg_iff {a : Frac} (ha : Finite a.num) (na : Normal a) : a.neg = true ↔ value a < 0 := by
  have p := uvalue_nonneg a.num
  have z := neg_uvalue_eq_zero ha
  unfold Normal at na
  unfold value
  cases h : a.neg
  · simpa using p
  · have : uvalue a.num ≠ 0 := fun h' => by rw [h] at na; cases na (z.1 h')
    have := lt_of_le_of_ne p (Ne.symm this)
    simpa using this

/-- **C16, where the negative zeros come from**: out of numbers that are not negative zeros, exactly in these cases. -/
theorem frac_negative_zero_characterised (a b : Frac) (ha : Finite a.num) (hb : Finite b.num) (na : Normal a) (nb : Normal b) :
    (¬ Normal (a.add b) ↔ value a + value b = 0 ∧ 0 < value a) ∧
    (¬ Normal (a.sub b) ↔ value a = value b ∧ 0 ≤ value a) ∧
    (¬ Normal (a.mul b) ↔ value a = 0 ∧ value b < 0 ∨ value a < 0 ∧ value b = 0) ∧
    (value b ≠ 0 → (¬ Normal (a.div b) ↔ value a = 0 ∧ value b < 0)) ∧
    (¬ Normal a.neg' ↔ value a = 0) := by
  have sa := neg_iff ha na
  have sb := neg_iff hb nb
  have hc := (ufrac_cmp_correct _ _ ha hb).2
  have va : value a = if a.neg then -uvalue a.num else uvalue a.num := rfl
  have vb : value b = if b.neg then -uvalue b.num else uvalue b.num := rfl
  have hsgn : (a.neg != b.neg) = true ↔ (a.neg = true ↔ ¬ b.neg = true) := by
    cases a.neg <;> cases b.neg <;> simp
  refine ⟨?_, ?_, ?_, ?_, ?_⟩
  · have h := frac_add_correct a b ha hb
    rw [not_normal_iff h.2, h.1]
    refine and_congr_right fun h0 => ?_
    unfold Frac.add
    cases hA : a.neg <;> cases hB : b.neg <;>
      simp only [hA, hB, Bool.false_eq_true, if_false, if_true, false_iff, true_iff, not_lt] at sa sb va vb ⊢
    · simp; linarith
    · have : ¬ UFrac.cmp a.num b.num = .gt := fun h => by have := hc.1.1 h; linarith
      simp [this]; linarith
    · have : ¬ UFrac.cmp a.num b.num = .gt := fun h => by have := hc.1.1 h; linarith
      simp [this]; linarith
    · linarith
  · have h := frac_sub_correct a b ha hb
    rw [not_normal_iff h.2, h.1, sub_eq_zero]
    refine and_congr_right fun h0 => ?_
    unfold Frac.sub
    cases hA : a.neg <;> cases hB : b.neg <;>
      simp only [hA, hB, Bool.false_eq_true, if_false, if_true, false_iff, true_iff, not_lt] at sa sb va vb ⊢
    · have : ¬ UFrac.cmp a.num b.num = .gt := fun h => by have := hc.1.1 h; linarith
      simp [this]; linarith
    · linarith
    · linarith
    · have : ¬ UFrac.cmp a.num b.num = .gt := fun h => by have := hc.1.1 h; linarith
      simp [this]; linarith
  · have h := frac_mul_correct a b ha hb
    rw [not_normal_iff h.2, h.1, mul_eq_zero]
    show _ ∧ (a.neg != b.neg) = true ↔ _
    rw [hsgn, sa, sb]
    constructor
    · rintro ⟨h1 | h1, h2⟩
      · exact Or.inl ⟨h1, by by_contra h3; have := h2.2 h3; linarith⟩
      · exact Or.inr ⟨h2.2 (by linarith), h1⟩
    · rintro (⟨h1, h2⟩ | ⟨h1, h2⟩)
      · exact ⟨Or.inl h1, by constructor <;> intro h3 <;> [linarith; exact absurd h2 h3]⟩
      · exact ⟨Or.inr h2, by constructor <;> intro _ <;> linarith⟩
  · intro h0
    have h := frac_div_correct a b ha hb h0
    rw [not_normal_iff h.2, h.1, div_eq_zero_iff, or_iff_left h0]
    refine and_congr_right fun h1 => ?_
    show (a.neg != b.neg) = true ↔ _
    rw [hsgn, sa, sb]
    constructor
    · intro h2; by_contra h3; have := h2.2 h3; linarith
    · intro h2; constructor <;> intro h3 <;> [linarith; exact absurd h2 h3]
  · have h1 : value a.neg' = - value a := by
      unfold value Frac.neg'
      cases a.neg <;> simp
    rw [not_normal_iff (show Finite a.neg'.num from ha), h1, neg_eq_zero]
    refine ⟨fun h => h.1, fun h => ⟨h, ?_⟩⟩
    show (!a.neg) = true
    cases hA : a.neg
    · rfl
    · have := sa.1 hA; linarith

example : ¬ Normal (Frac.sub ⟨false, ⟨1, 2⟩⟩ ⟨false, ⟨2, 4⟩⟩) ∧ Normal (Frac.sub ⟨true, ⟨1, 2⟩⟩ ⟨true, ⟨2, 4⟩⟩) := by
  unfold Normal
  decide +kernel

end ELC.Bigfloat
