import Verif.LogicalBool.Model
import Verif.LogicalBool.Spec

/-! Property C47: the algebra of `logical_bool`. -/
namespace ELC.LogicalBool
open LogicalSpec

/-- What a `logical_bool` object stands for. -/
def val (a : LogicalBool) : Val :=
  if a.isUnknown then .unknown
  else match a.isTrue, a.isFalse with
    | true, false => .t
    | false, true => .f
    | false, false => .neither
    | true, true => .either

/-- C47: the constants and the conversion from `bool` denote the documented values. -/
theorem constants_val :
    val neither = .neither ∧ val either = .either ∧ val unknown = .unknown ∧
      val (ofBool true) = .t ∧ val (ofBool false) = .f := by decide

/-- C47: a condition is satisfied exactly by true and either. -/
theorem toBool_iff (a : LogicalBool) : a.toBool = holds a.val := by
  rcases a with ⟨_ | _, _ | _, _ | _⟩ <;> rfl

/-- C47: an operation yields unknown exactly when an operand is unknown. -/
theorem unknown_absorbing (a b : LogicalBool) :
    (val a.not = .unknown ↔ val a = .unknown) ∧
    (val (a.and b) = .unknown ↔ val a = .unknown ∨ val b = .unknown) ∧
    (val (a.or b) = .unknown ↔ val a = .unknown ∨ val b = .unknown) ∧
    (val (a.eq b) = .unknown ↔ val a = .unknown ∨ val b = .unknown) := by
  rcases a with ⟨_ | _, _ | _, _ | _⟩ <;> rcases b with ⟨_ | _, _ | _, _ | _⟩ <;> decide

/-- C47: on legal operands `&&` is the greatest lower bound of the truth order. -/
theorem and_is_glb (a b : LogicalBool) (ha : val a ≠ .unknown) (hb : val b ≠ .unknown) :
    le (val (a.and b)) (val a) = true ∧ le (val (a.and b)) (val b) = true ∧
      ∀ c, le c (val a) = true → le c (val b) = true → le c (val (a.and b)) = true := by
  rcases a with ⟨_ | _, _ | _, _ | _⟩ <;> rcases b with ⟨_ | _, _ | _, _ | _⟩ <;>
    first
      | (exact absurd rfl ha)
      | (exact absurd rfl hb)
      | (refine ⟨by decide, by decide, fun c => ?_⟩; cases c <;> decide)

/-- C47: on legal operands `||` is the least upper bound of the truth order. -/
theorem or_is_lub (a b : LogicalBool) (ha : val a ≠ .unknown) (hb : val b ≠ .unknown) :
    le (val a) (val (a.or b)) = true ∧ le (val b) (val (a.or b)) = true ∧
      ∀ c, le (val a) c = true → le (val b) c = true → le (val (a.or b)) c = true := by
  rcases a with ⟨_ | _, _ | _, _ | _⟩ <;> rcases b with ⟨_ | _, _ | _, _ | _⟩ <;>
    first
      | (exact absurd rfl ha)
      | (exact absurd rfl hb)
      | (refine ⟨by decide, by decide, fun c => ?_⟩; cases c <;> decide)

/-- C47: on legal operands `!` reverses the truth order and keeps neither and either. -/
theorem not_val (a : LogicalBool) :
    val a.not = match val a with
      | .t => .f | .f => .t | .neither => .neither | .either => .either | .unknown => .unknown := by
  rcases a with ⟨_ | _, _ | _, _ | _⟩ <;> rfl

/-- C47: `==` on legal operands is true exactly when they are the same value, false otherwise. -/
theorem eq_val (a b : LogicalBool) (ha : val a ≠ .unknown) (hb : val b ≠ .unknown) :
    val (a.eq b) = if val a = val b then .t else .f := by
  rcases a with ⟨_ | _, _ | _, _ | _⟩ <;> rcases b with ⟨_ | _, _ | _, _ | _⟩ <;>
    first
      | (exact absurd rfl ha)
      | (exact absurd rfl hb)
      | decide

/-- C47: involution, De Morgan, commutativity, associativity, distributivity and absorption
hold for the objects themselves, unknown included (absorption needs a legal second operand). -/
theorem laws (a b c : LogicalBool) :
    a.not.not = a ∧
    (a.and b).not = a.not.or b.not ∧ (a.or b).not = a.not.and b.not ∧
    a.and b = b.and a ∧ a.or b = b.or a ∧ a.eq b = b.eq a ∧
    (a.and b).and c = a.and (b.and c) ∧ (a.or b).or c = a.or (b.or c) ∧
    a.and (b.or c) = (a.and b).or (a.and c) ∧ a.or (b.and c) = (a.or b).and (a.or c) ∧
    (b.isUnknown = false → a.and (a.or b) = a ∧ a.or (a.and b) = a) := by
  rcases a with ⟨_ | _, _ | _, _ | _⟩ <;> rcases b with ⟨_ | _, _ | _, _ | _⟩ <;>
    rcases c with ⟨_ | _, _ | _, _ | _⟩ <;> decide

example : val (neither.and either) = .f ∧ val (neither.or either) = .t := by decide
example : val neither ≠ .unknown ∧ val either ≠ .unknown := by decide

end ELC.LogicalBool
