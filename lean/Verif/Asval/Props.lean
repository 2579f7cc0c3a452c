import Verif.Asval.Spec
/-! C210: native numbers as values. -/
namespace ELC.Asval

/-- Converting to a type that has the number changes nothing. -/
theorem convert_fits {T : Ty} {v : Int} (h : Fits T v) : convert T v = v := by
  cases T <;> simp only [Fits, convert, Ty.signed, Ty.bits, if_true, if_false, Bool.false_eq_true] at * <;>
    norm_num at * <;> (try split_ifs) <;> omega

/-- The type of the payload has all numbers of the type. -/
theorem fits_stored {T : Ty} {v : Int} (h : Fits T v) : Fits (storedAs T) v := by
  cases T <;> simp only [Fits, storedAs, Ty.signed, Ty.bits, if_true, if_false, Bool.false_eq_true, reduceCtorEq] at * <;>
    norm_num at * <;> omega

/-- C210: the payload is the number, for every type. -/
theorem value_kept {T : Ty} {v : Int} (h : Fits T v) : (asNode T v).payload = v := convert_fits (fits_stored h)

/-- C210: two numbers get payloads of the same type and value exactly when they are the same number and both are
characters, both are signed or both are unsigned. -/
theorem same_payload {T U : Ty} {v u : Int} (h : Fits T v) (g : Fits U u) :
    asNode T v = asNode U u ↔ v = u ∧ (T = .char32 ↔ U = .char32) ∧ (T.signed ↔ U.signed) := by
  have e : asNode T v = asNode U u ↔ storedAs T = storedAs U ∧ v = u := by
    have a := value_kept h
    have b := value_kept g
    constructor
    · intro k
      exact ⟨congrArg Node.ty k, by rw [← a, ← b, k]⟩
    · rintro ⟨k1, k2⟩
      rw [asNode, asNode, k1, k2]
  rw [e, and_comm]
  refine and_congr_right fun _ => ?_
  cases T <;> cases U <;> simp [storedAs, Ty.signed]

/-- C210, getting a number back with its own type: proved for `char_t`, `int_t` and `uint_t`.  Missing: all other types,
where it is false (next theorems). -/
theorem round_trip_partial {T : Ty} {v : Int} (h : Fits T v) (hT : T = .char32 ∨ T = .long ∨ T = .ulong) :
    useAs T (asNode T v) = v := by
  have := value_kept h
  have e : (asNode T v).ty = T := by rcases hT with rfl | rfl | rfl <;> rfl
  rw [useAs, if_pos e, this]

/-- C210, all types: a number other than zero comes back exactly for these three. -/
theorem round_trip_characterised {T : Ty} {v : Int} (h : Fits T v) :
    useAs T (asNode T v) = v ↔ v = 0 ∨ T = .char32 ∨ T = .long ∨ T = .ulong := by
  constructor
  · intro k
    by_cases hT : T = .char32 ∨ T = .long ∨ T = .ulong
    · exact .inr hT
    · refine .inl ?_
      have e : (asNode T v).ty ≠ T := by
        intro e
        apply hT
        cases T <;> simp [asNode, storedAs, Ty.signed] at e ⊢
      rw [useAs, if_neg e] at k
      exact k.symm
  · rintro (rfl | hT)
    · have := value_kept h
      rw [useAs]
      split_ifs
      · exact this
      · rfl
    · exact round_trip_partial h hT

/-- C210 is false of the program: an `int` comes back as zero, and so does the character `'a'` as a `char_t`. -/
theorem round_trip_refuted : Fits .int 5 ∧ useAs .int (asNode .int 5) = 0 ∧
    Fits .char 97 ∧ useAs .char32 (asNode .char 97) = 0 := by
  refine ⟨?_, by decide, ?_, by decide⟩ <;> norm_num [Fits, Ty.signed, Ty.bits]

-- the smallest and the largest numbers
example : Fits .long (-9223372036854775808) ∧ Fits .ulong 18446744073709551615 ∧ Fits .bool 1 ∧ Fits .char32 0x10FFFF := by
  refine ⟨?_, ?_, ?_, ?_⟩ <;> norm_num [Fits, Ty.signed, Ty.bits]

end ELC.Asval
