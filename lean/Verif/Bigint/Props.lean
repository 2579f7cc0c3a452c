import Verif.Bigint.Spec
import Mathlib.Tactic.Ring

/-! Properties C13 (arithmetic) and C14 (comparison, one zero) of the signed big integer. -/
namespace ELC.Bigint
open Spec

theorem value_make (n : Nat) (s : Bool) : value (make n s) = if s then -(n : Int) else n := by
  unfold value make
  by_cases h : n = 0
  · subst h; simp
  · simp [h]

theorem normal_make (n : Nat) (s : Bool) : Normal (make n s) := by
  intro h; unfold make at *; simp only at h; simp [h]

/-! ### C13 -/

/-- C13: building from an integer. -/
theorem of_int_correct (z : Int) : value (ofInt z) = z ∧ Normal (ofInt z) := by
  unfold ofInt value Normal
  constructor
  · by_cases h : z < 0 <;> simp [h] <;> omega
  · simp; omega

/-- C13, the part of `+` that holds: operands with the same sign. -/
theorem add_partial (fuel : Nat) (a b : Big) (h : a.neg = b.neg) :
    ∃ r, add fuel a b = some r ∧ value r = value a + value b ∧ Normal r := by
  refine ⟨make (a.num + b.num) a.neg, by simp [add, h], ?_, normal_make _ _⟩
  rw [value_make]
  unfold value
  rw [← h]
  cases a.neg <;> simp <;> omega

example : add 0 ⟨true, 3⟩ ⟨true, 4⟩ = some ⟨true, 7⟩ := by decide

/-- `+=` with a negative left side and a non-negative right side calls itself for ever. -/
theorem add_assign_diverges (fuel : Nat) (a b : Big) (ha : a.neg = true) (hb : b.neg = false) :
    addAssign fuel a b = none := by
  induction fuel generalizing a with
  | zero => rfl
  | succ fuel ih =>
    simp only [addAssign, ha, hb]
    exact ih _ (by simp [negR, ha])

/-- C13 is false of the program: `+` of two integers of different signs never returns. -/
theorem add_refuted (fuel : Nat) (a b : Big) (ha : Normal a) (hb : Normal b) (h : a.neg ≠ b.neg) :
    add fuel a b = none := by
  have key : ∀ x y : Big, Normal x → x.neg = true → y.neg = false →
      subRvalue fuel y (negL x) = none := by
    intro x y hx h1 h2
    apply add_assign_diverges
    · have : x.num ≠ 0 := by intro h0; rw [hx h0] at h1; cases h1
      simp [negR, negL, make, h1, this]
    · exact h2
  unfold add
  cases hA : a.neg <;> cases hB : b.neg <;> simp [hA, hB] at h ⊢
  · exact key b a hb hB hA
  · exact key a b ha hA hB

example : Normal ⟨false, 5⟩ ∧ Normal ⟨true, 3⟩ ∧ (⟨false, 5⟩ : Big).neg ≠ (⟨true, 3⟩ : Big).neg := by
  simp [Normal]

/-- C13, the part of `+=` that holds: operands with the same sign. -/
theorem add_assign_partial (fuel : Nat) (a b : Big) (h : a.neg = b.neg) :
    ∃ r, addAssign (fuel + 1) a b = some r ∧ value r = value a + value b := by
  refine ⟨⟨a.neg, a.num + b.num⟩, by simp [addAssign, h], ?_⟩
  unfold value
  rw [← h]
  cases a.neg <;> simp <;> omega

/-- C13 is false of the program: `x+=y` for `x ≥ 0 > y` leaves `x` as it was. -/
theorem add_assign_refuted (fuel : Nat) (a b : Big) (ha : a.neg = false) (hb : b.neg = true) :
    addAssign (fuel + 1) a b = some a := by
  obtain ⟨an, am⟩ := a
  obtain ⟨bn, bm⟩ := b
  simp only at ha hb
  subst ha; subst hb
  simp [addAssign, subAssign, negL, make]

/-- C13: `-` of two integers, every sign combination. -/
theorem sub_correct (a b : Big) : value (sub a b) = value a - value b ∧ Normal (sub a b) := by
  unfold sub
  split
  · next h =>
    refine ⟨?_, normal_make _ _⟩
    rw [value_make]; unfold value
    cases hA : a.neg <;> cases hB : b.neg <;> simp [hA, hB] at h ⊢ <;> omega
  · next h =>
    have h : a.neg = b.neg := by simpa using h
    split
    · refine ⟨?_, normal_make _ _⟩
      rw [value_make]; unfold value; rw [← h]
      cases a.neg <;> simp <;> omega
    · refine ⟨?_, normal_make _ _⟩
      rw [value_make]; unfold value; rw [← h]
      cases a.neg <;> simp <;> omega

example : sub ⟨false, 3⟩ ⟨false, 5⟩ = ⟨true, 2⟩ := by decide

/-- C13, what `-=` really does: with equal signs it leaves the left side as it was, with different
signs it subtracts magnitudes. -/
theorem sub_assign_characterised (a b : Big) :
    (a.neg = b.neg → subAssign a b = a) ∧
    (a.neg ≠ b.neg → value (subAssign a b) = value a + value b) := by
  obtain ⟨an, am⟩ := a
  obtain ⟨bn, bm⟩ := b
  constructor
  · intro h
    simp only at h; subst h
    simp [subAssign]
  · intro h
    unfold subAssign value
    cases an <;> cases bn <;> simp at h ⊢ <;> split <;> simp_all <;> omega

/-- C13, the part of `-=` that holds: subtracting zero. -/
theorem sub_assign_partial (a b : Big) (hb : b.num = 0) : value (subAssign a b) = value a - value b := by
  obtain ⟨an, am⟩ := a
  obtain ⟨bn, bm⟩ := b
  simp only at hb; subst hb
  simp [subAssign, value]

/-- C13 is false of the program: `5-=3` is 5 and `5-=-3` is 2. -/
theorem sub_assign_refuted : subAssign ⟨false, 5⟩ ⟨false, 3⟩ = ⟨false, 5⟩ ∧
    subAssign ⟨false, 5⟩ ⟨true, 3⟩ = ⟨false, 2⟩ := by decide

/-- C13: subtracting a temporary of the same sign does not return either. -/
theorem sub_rvalue_refuted (fuel : Nat) (a b : Big) (ha : a.neg = false) (hb : b.neg = false) :
    subRvalue fuel a b = none := by
  unfold subRvalue
  exact add_assign_diverges _ _ _ (by simp [negR, hb]) ha

theorem mul_signs (m n : Nat) (s t : Bool) :
    (if s != t then -((m * n : Nat) : Int) else (m * n : Nat)) =
      (if s then -(m : Int) else m) * (if t then -(n : Int) else n) := by
  cases s <;> cases t <;> simp

/-- C13: `*`. -/
theorem mul_correct (a b : Big) : value (mul a b) = value a * value b ∧ Normal (mul a b) := by
  refine ⟨?_, normal_make _ _⟩
  unfold mul; rw [value_make]; unfold value
  exact mul_signs _ _ _ _

/-- C13: `*=`. -/
theorem mul_assign_correct (a b : Big) : value (mulAssign a b) = value a * value b := by
  unfold mulAssign value
  exact mul_signs _ _ _ _

theorem tdiv_signs (m n : Nat) (s t : Bool) :
    (if s != t then -((m / n : Nat) : Int) else (m / n : Nat)) =
      Int.tdiv (if s then -(m : Int) else m) (if t then -(n : Int) else n) := by
  cases s <;> cases t <;> simp [Int.neg_tdiv, Int.tdiv_neg]

/-- C13: `/` truncates towards zero, for a non-zero divisor. -/
theorem div_correct (a b : Big) (hb : b.num ≠ 0) :
    value (div a b) = Int.tdiv (value a) (value b) ∧ Normal (div a b) := by
  refine ⟨?_, normal_make _ _⟩
  unfold div; rw [value_make]; unfold value udiv
  rw [if_neg hb]
  exact tdiv_signs _ _ _ _

/-- C13: `/=`. -/
theorem div_assign_correct (a b : Big) (hb : b.num ≠ 0) :
    value (divAssign a b) = Int.tdiv (value a) (value b) := by
  unfold divAssign value udiv
  rw [if_neg hb]
  exact tdiv_signs _ _ _ _

theorem tmod_signs (m n : Nat) (s t : Bool) :
    (if s then -((m % n : Nat) : Int) else (m % n : Nat)) =
      Int.tmod (if s then -(m : Int) else m) (if t then -(n : Int) else n) := by
  cases s <;> cases t <;> simp [Int.neg_tmod, Int.tmod_neg, Int.tmod_eq_emod_of_nonneg]

/-- C13: `%` has the sign of the dividend, for a non-zero divisor. -/
theorem mod_correct (a b : Big) (hb : b.num ≠ 0) :
    value (mod a b) = Int.tmod (value a) (value b) ∧ Normal (mod a b) := by
  refine ⟨?_, normal_make _ _⟩
  unfold mod; rw [value_make]; unfold value umod
  rw [if_neg hb]
  exact tmod_signs _ _ _ _

/-- C13: `%=`. -/
theorem mod_assign_correct (a b : Big) (hb : b.num ≠ 0) :
    value (modAssign a b) = Int.tmod (value a) (value b) := by
  unfold modAssign value umod
  rw [if_neg hb]
  exact tmod_signs _ _ _ _

/-- C13: dividing by zero gives zero. -/
theorem div_mod_zero (a b : Big) (hb : b.num = 0) :
    value (div a b) = 0 ∧ value (mod a b) = 0 ∧ value (divAssign a b) = 0 ∧ value (modAssign a b) = 0 := by
  simp [div, mod, divAssign, modAssign, udiv, umod, hb, value, make]

example : div ⟨true, 7⟩ ⟨false, 2⟩ = ⟨true, 3⟩ ∧ mod ⟨true, 7⟩ ⟨false, 2⟩ = ⟨true, 1⟩ := by decide

/-- C13: division identity. -/
theorem div_mod_identity (a b : Big) (hb : b.num ≠ 0) :
    value a = value b * value (div a b) + value (mod a b) := by
  rw [(div_correct a b hb).1, (mod_correct a b hb).1, Int.mul_tdiv_add_tmod]

/-- C13: both negations. -/
theorem neg_correct (a : Big) : value (negL a) = -value a ∧ value (negR a) = -value a ∧
    Normal (negL a) := by
  refine ⟨?_, ?_, normal_make _ _⟩
  · unfold negL; rw [value_make]; unfold value; cases a.neg <;> simp
  · unfold negR value; cases a.neg <;> simp

/-- C13: `++` and `--`. -/
theorem inc_dec_correct (a : Big) (h : Normal a) : value (inc a) = value a + 1 ∧
    value (dec a) = value a - 1 ∧ Normal (inc a) ∧ Normal (dec a) := by
  obtain ⟨an, am⟩ := a
  unfold Normal at *
  simp only at h
  unfold inc dec value
  cases an
  · refine ⟨by simp, ?_, by simp, ?_⟩
    · by_cases h0 : am = 0 <;> simp [h0]; omega
    · by_cases h0 : am = 0 <;> simp [h0]
  · have h0 : am ≠ 0 := fun h0 => by have := h h0; cases this
    refine ⟨?_, by simp; omega, ?_, by simp⟩
    · by_cases h1 : am - 1 = 0 <;> simp [h1] <;> omega
    · by_cases h1 : am - 1 = 0 <;> simp [h1]

/-- C13: the shifts multiply and divide the magnitude. -/
theorem shift_correct (a : Big) (n : Nat) : value (shl a n) = value a * 2 ^ n ∧
    value (shr a n) = Int.tdiv (value a) (2 ^ n) ∧ Normal (shl a n) ∧ Normal (shr a n) := by
  refine ⟨?_, ?_, normal_make _ _, normal_make _ _⟩
  · unfold shl; rw [value_make]; unfold value; cases a.neg <;> simp
  · unfold shr; rw [value_make]; unfold value
    have := tdiv_signs a.num (2 ^ n) a.neg false
    simpa using this

/-! ### C14 -/

/-- C14, the part that holds: on everything but a negative zero, `==` is equality of integers. -/
theorem eq_partial (a b : Big) (ha : Normal a) (hb : Normal b) : eq a b = true ↔ value a = value b := by
  obtain ⟨an, am⟩ := a
  obtain ⟨bn, bm⟩ := b
  unfold eq value
  unfold Normal at ha hb
  simp only at ha hb
  cases an <;> cases bn <;> simp at ha hb ⊢ <;> omega

/-- C14, the part that holds: on everything but a negative zero, `<=>` is the order of integers. -/
theorem cmp_partial (a b : Big) (ha : Normal a) (hb : Normal b) :
    (cmp a b = .lt ↔ value a < value b) ∧ (cmp a b = .gt ↔ value b < value a) ∧
    (cmp a b = .eq ↔ value a = value b) := by
  obtain ⟨an, am⟩ := a
  obtain ⟨bn, bm⟩ := b
  unfold cmp value
  unfold Normal at ha hb
  simp only at ha hb
  have hs : ∀ o : Ordering, (o.swap = .lt ↔ o = .gt) ∧ (o.swap = .gt ↔ o = .lt) ∧
      (o.swap = .eq ↔ o = .eq) := by
    intro o; cases o <;> decide
  have h1 : compare am bm = .lt ↔ am < bm := Nat.compare_eq_lt
  have h2 : compare am bm = .gt ↔ bm < am := Nat.compare_eq_gt
  have h3 : compare am bm = .eq ↔ am = bm := Nat.compare_eq_eq
  cases an <;> cases bn <;> simp only [bne_self_eq_false, Bool.false_eq_true, if_false, if_true, hs, h1,
    h2, h3] at ha hb ⊢
  · omega
  · simp at hb ⊢; omega
  · simp at ha ⊢; omega
  · omega

/-- C14, the part that holds: these operations never produce a negative zero. -/
theorem normal_preserved (a b : Big) (ha : Normal a) (z : Int) (n : Nat) :
    Normal (ofInt z) ∧ Normal (sub a b) ∧ Normal (mul a b) ∧ Normal (div a b) ∧ Normal (mod a b) ∧
    Normal (negL a) ∧ Normal (shl a n) ∧ Normal (shr a n) ∧ Normal (inc a) ∧ Normal (dec a) :=
  ⟨(of_int_correct z).2, (sub_correct a b).2, normal_make _ _, normal_make _ _, normal_make _ _,
   normal_make _ _, normal_make _ _, normal_make _ _, (inc_dec_correct a ha).2.2⟩

/-- C14 is false of the program: `*=`, `/=`, `%=`, `>>=` and negating a temporary make a negative
zero, which is neither equal to zero nor ordered like it. -/
theorem negative_zero_refuted :
    mulAssign ⟨true, 5⟩ ⟨false, 0⟩ = ⟨true, 0⟩ ∧ divAssign ⟨true, 5⟩ ⟨false, 7⟩ = ⟨true, 0⟩ ∧
    modAssign ⟨true, 6⟩ ⟨false, 3⟩ = ⟨true, 0⟩ ∧ shrAssign ⟨true, 1⟩ 1 = ⟨true, 0⟩ ∧
    negR ⟨false, 0⟩ = ⟨true, 0⟩ ∧ value ⟨true, 0⟩ = value ⟨false, 0⟩ ∧
    eq ⟨true, 0⟩ ⟨false, 0⟩ = false ∧ cmp ⟨true, 0⟩ ⟨false, 0⟩ = .lt := by decide

/-- C14: on everything but a negative zero, equal integers have equal hashes. -/
theorem hash_partial (bits : Nat) (h : Nat → Nat) (a b : Big) (ha : Normal a) (hb : Normal b)
    (hv : value a = value b) : hash bits h a = hash bits h b := by
  obtain ⟨an, am⟩ := a
  obtain ⟨bn, bm⟩ := b
  unfold value at hv
  unfold Normal at ha hb
  simp only at ha hb
  have : an = bn ∧ am = bm := by
    cases an <;> cases bn <;> simp at ha hb hv ⊢ <;> omega
  rw [this.1, this.2]

/-- **C14, what the code does**, for all numbers: `==` and `<=>` are those of the integers, with a negative zero as another number
between the negative ones and zero. -/
theorem order_characterised (a b : Big) :
    (eq a b = true ↔ value a = value b ∧ (Normal a ↔ Normal b)) ∧
    (cmp a b = .lt ↔ value a < value b ∨ value a = value b ∧ ¬ Normal a ∧ Normal b) ∧
    (cmp a b = .gt ↔ value b < value a ∨ value a = value b ∧ Normal a ∧ ¬ Normal b) ∧
    (cmp a b = .eq ↔ eq a b = true) := by
  obtain ⟨an, am⟩ := a
  obtain ⟨bn, bm⟩ := b
  unfold eq cmp value Normal
  have hs : ∀ o : Ordering, (o.swap = .lt ↔ o = .gt) ∧ (o.swap = .gt ↔ o = .lt) ∧ (o.swap = .eq ↔ o = .eq) := by
    intro o; cases o <;> decide
  have h1 : compare am bm = .lt ↔ am < bm := Nat.compare_eq_lt
  have h2 : compare am bm = .gt ↔ bm < am := Nat.compare_eq_gt
  have h3 : compare am bm = .eq ↔ am = bm := Nat.compare_eq_eq
  cases an <;> cases bn <;> simp [hs, h1, h2, h3] <;> omega

/-- **C14, when a negative zero arises**: from numbers that are none, the assigning forms give one exactly when the result is zero and
the sign computed from the operands is negative; the negation of a temporary exactly for zero. -/
theorem negative_zero_characterised (a b : Big) (ha : Normal a) (hb : Normal b) (n : Nat) :
    (¬ Normal (mulAssign a b) ↔ value a < 0 ∧ value b = 0 ∨ value a = 0 ∧ value b < 0) ∧
    (¬ Normal (divAssign a b) ↔ (value a < 0) ≠ (value b < 0) ∧ (value b = 0 ∨ (value a).natAbs < (value b).natAbs)) ∧
    (¬ Normal (modAssign a b) ↔ value a < 0 ∧ (value b ∣ value a ∨ value b = 0)) ∧
    (¬ Normal (shrAssign a n) ↔ value a < 0 ∧ (value a).natAbs < 2 ^ n) ∧
    (¬ Normal (negR a) ↔ value a = 0) := by
  have hv : ∀ x : Big, Normal x → ((value x < 0 ↔ x.neg = true) ∧ (value x).natAbs = x.num ∧ (value x = 0 ↔ x.num = 0)) := by
    rintro ⟨xn, xm⟩ hx
    unfold Normal at hx
    unfold value
    cases xn <;> simp at hx ⊢ <;> omega
  obtain ⟨a1, a2, a3⟩ := hv a ha
  obtain ⟨b1, b2, b3⟩ := hv b hb
  have hd : value b ∣ value a ↔ b.num ∣ a.num := by rw [← Int.natAbs_dvd_natAbs, a2, b2]
  rw [a1, b1, a2, b2, a3, b3, hd]
  obtain ⟨an, am⟩ := a
  obtain ⟨bn, bm⟩ := b
  unfold Normal at *
  unfold mulAssign divAssign modAssign shrAssign negR udiv umod
  simp only at ha hb ⊢
  have hp := Nat.two_pow_pos n
  refine ⟨?_, ?_, ?_, ?_, ?_⟩
  · cases an <;> cases bn <;> simp at ha hb ⊢ <;> omega
  · by_cases h0 : bm = 0
    · cases an <;> cases bn <;> simp [h0] at ha hb ⊢
    · cases an <;> cases bn <;> simp [h0, Nat.div_eq_zero_iff] at ha hb ⊢
  · by_cases h0 : bm = 0
    · cases an <;> simp [h0] at ha hb ⊢
    · cases an <;> simp [h0, Nat.dvd_iff_mod_eq_zero] at ha hb ⊢
  · cases an <;> simp [Nat.div_eq_zero_iff] at ha ⊢
  · cases an <;> simp at ha ⊢ <;> omega

example : Normal ⟨true, 6⟩ ∧ Normal ⟨false, 3⟩ ∧ ¬ Normal (modAssign ⟨true, 6⟩ ⟨false, 3⟩) ∧ Normal (divAssign ⟨true, 6⟩ ⟨false, 3⟩) := by
  simp [Normal, modAssign, divAssign, umod, udiv]

end ELC.Bigint
