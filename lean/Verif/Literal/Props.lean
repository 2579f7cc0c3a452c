import Verif.Literal.Lemmas
/-! C22 and C56: literals of the big number types. -/
namespace ELC.Literal
open Spec ELC.Ubig.Spec
open ELC.Numeral.Spec (positional)
open ELC.Bigfloat ELC.Bigfloat.Spec

/-- C22: a `_ubigint` literal of any length, in base 2, 8, 10 or 16 and with separators anywhere, is the stored form of
the number it denotes.  The arithmetic is the one on digit arrays, so nothing is assumed of `*` and `+=`. -/
theorem ubigint_literal_correct {w : Nat} (hw : 2 ≤ w) (cs : List Nat) (n : Nat) (h : Integer 10 cs n) :
    ∃ r, evalUbigint w cs = some r ∧ Stores w r n :=
  evalWithBase_spec hw (by simp [IsBase]) h

/-- C22: the compiler rejects every other character. -/
theorem literal_accepted_digits {w base : Nat} (cs : List Nat) (r : Ubig.Digits) (h : doEval w base cs = some r) :
    ∃ ds, Spells base cs ds := by
  rw [doEval, Option.bind_eq_some_iff] at h
  obtain ⟨a, h1, _⟩ := h
  exact run_some cs _ a h1

/-- C22: a literal in digits of the base is evaluated to their positional value, whatever the base. -/
theorem literal_digits_correct {w base : Nat} (hw : 2 ≤ w) (hb : base = 2 ∨ base = 8 ∨ base = 10 ∨ base = 16)
    (cs ds : List Nat) (h : Spells base cs ds) : ∃ r, doEval w base cs = some r ∧ Stores w r (positional base ds) :=
  doEval_spec hw hb h

-- 1'000'000'000'000'000'000'000, which needs two blocks
example : Integer 10 [49, 39, 48, 48, 48, 39, 48, 48, 48, 39, 48, 48, 48, 39, 48, 48, 48, 39, 48, 48, 48, 39, 48, 48, 48,
    39, 48, 48, 48] (10 ^ 21) :=
  .plain (ds := 1 :: List.replicate 21 0) (by decide) ⟨by decide, by decide⟩
example : Integer 10 [48, 120, 70, 102] 255 := .hex (ds := [15, 15]) (.inl rfl) ⟨by decide, by decide⟩
example : Integer 10 [48] 0 := .oct (ds := []) ⟨by decide, by decide⟩

/-- C56: a `_ubigfloat` literal is the number it denotes: the digits, moved by the number of digits after the point,
times the base raised to the exponent. -/
theorem ubigfloat_literal_correct {w : Nat} (hw : 2 ≤ w) (cs : List Nat) (q : ℚ) (h : Float cs q) :
    ∃ u, evalUbigfloat w cs = some u ∧ uvalue u = q ∧ Finite u := by
  cases h with
  | @hex x cs q hx hb =>
    have e : evalUbigfloat w (48 :: x :: cs) = doEvalFloat w 16 112 cs := by
      rcases hx with rfl | rfl <;> rfl
    rw [e]
    exact doEvalFloat_spec hw (by simp [IsBase]) (Or.inr (by omega)) (by omega) hb
  | @dec cs q hb =>
    have e : evalUbigfloat w cs = doEvalFloat w 10 101 cs := by
      unfold evalUbigfloat
      split
      · exact absurd rfl (body_not_hex (x := 120) hb (Or.inl rfl))
      · exact absurd rfl (body_not_hex (x := 88) hb (Or.inr rfl))
      · rfl
    rw [e]
    exact doEvalFloat_spec hw (by simp [IsBase]) (Or.inl (by omega)) (by omega) hb

-- 12.5e-1
example : Float [49, 50, 46, 53, 101, 45, 49] (5 / 4) := by
  have h : Float [49, 50, 46, 53, 101, 45, 49] _ :=
    Float.dec (Body.exp (m := [49, 50, 46, 53]) (x := 101) (s := [45, 49])
      (Mantissa.point (a := [49, 50]) (b := [53]) (ds := [1, 2]) (es := [5]) ⟨by decide, by decide⟩ ⟨by decide, by decide⟩)
      (.inl rfl) (Exponent.neg (cs := [49]) (Integer.plain (ds := [1]) (by decide) ⟨by decide, by decide⟩)))
  have e : ((positional 10 [1, 2] : ℚ) + (positional 10 [5] : ℚ) / ((10 : ℕ) : ℚ) ^ [5].length) *
      ((10 : ℕ) : ℚ) ^ (-((positional 10 [1] : ℕ) : ℤ)) = 5 / 4 := by
    norm_num [positional]
  rw [e] at h
  exact h

/-- C56, where the literal is not what a reader of C++ expects: an exponent with a leading zero is octal, so `1e010` is
ten to the eighth power. -/
theorem float_literal_octal_exponent {w : Nat} (hw : 2 ≤ w) :
    ∃ u, evalUbigfloat w [49, 101, 48, 49, 48] = some u ∧ uvalue u = 10 ^ 8 ∧ uvalue u ≠ 10 ^ 10 := by
  have h : Float [49, 101, 48, 49, 48] _ :=
    Float.dec (Body.exp (m := [49]) (x := 101) (s := [48, 49, 48]) (Mantissa.int (ds := [1]) ⟨by decide, by decide⟩)
      (.inl rfl) (Exponent.pos (by decide) (Integer.oct (cs := [49, 48]) (ds := [1, 0]) ⟨by decide, by decide⟩)))
  obtain ⟨u, h1, h2, _⟩ := ubigfloat_literal_correct hw _ _ h
  refine ⟨u, h1, ?_, ?_⟩ <;> rw [h2] <;> norm_num [positional]

/-- C56: a hexadecimal exponent counts powers of sixteen, written in hexadecimal, so `0x1p10` is `16^16`; the same
literal of a built-in type is `2^10`. -/
theorem float_literal_hex_exponent {w : Nat} (hw : 2 ≤ w) :
    ∃ u, evalUbigfloat w [48, 120, 49, 112, 49, 48] = some u ∧ uvalue u = 16 ^ 16 ∧ uvalue u ≠ 2 ^ 10 := by
  have h : Float [48, 120, 49, 112, 49, 48] _ :=
    Float.hex (x := 120) (.inl rfl) (Body.exp (m := [49]) (x := 112) (s := [49, 48])
      (Mantissa.int (ds := [1]) ⟨by decide, by decide⟩)
      (.inl rfl) (Exponent.pos (by decide) (Integer.plain (ds := [1, 0]) (by decide) ⟨by decide, by decide⟩)))
  obtain ⟨u, h1, h2, _⟩ := ubigfloat_literal_correct hw _ _ h
  refine ⟨u, h1, ?_, ?_⟩ <;> rw [h2] <;> norm_num [positional]

end ELC.Literal
