import Verif.Arith.Tables
import Mathlib.Data.Nat.PrimeFin
import Mathlib.Data.Finset.Sort
/-! Factorisation of signed numbers (property C39) and compile-time tables of factors (property C184). -/
namespace ELC.Arith
open Spec

/-- C39, signed: what is returned multiplies back to the number; it is the primes in ascending order, followed by -1 for a
negative number. -/
theorem factorize_signed_sound_partial {root : Nat → Nat} (hr : Root root) {fuel : Nat} {n : Int} {l : List Int}
    (h : factorizeSigned root fuel n = some l) :
    l.prod = n ∧ ∃ ps : List Nat, l = ps.map Int.ofNat ++ (if n < 0 then [-1] else []) ∧ (∀ p ∈ ps, p.Prime) ∧ ps.Pairwise (· ≤ ·) := by
  obtain ⟨ps, hp, rfl⟩ := Option.map_eq_some_iff.1 h
  obtain ⟨h1, h2, h3⟩ := factorize_sound_partial hr hp
  refine ⟨?_, ps, rfl, h2, h3⟩
  have e : (ps.map Int.ofNat).prod = (n.natAbs : Int) := by
    rw [← h1]
    clear h h1 h2 h3 hp
    induction ps with
    | nil => rfl
    | cons p ps ih => simp [ih]
  rw [List.prod_append, e]
  split
  · rw [List.prod_singleton]; omega
  · rw [List.prod_nil]; omega

/-- C39, signed, without repetition: the prime divisors, each once and in ascending order, followed by -1 for a negative
number. -/
theorem factorize_unique_signed_sound_partial {root : Nat → Nat} (hr : Root root) {fuel : Nat} {n : Int} {l : List Int}
    (h : factorizeUniqueSigned root fuel n = some l) :
    ∃ ps : List Nat, l = ps.map Int.ofNat ++ (if n < 0 then [-1] else []) ∧ (∀ p, p ∈ ps ↔ p.Prime ∧ (p : Int) ∣ n) ∧
      ps.Pairwise (· < ·) := by
  obtain ⟨ps, hp, rfl⟩ := Option.map_eq_some_iff.1 h
  obtain ⟨h1, h2⟩ := factorize_unique_sound_partial hr hp
  exact ⟨ps, rfl, fun p => by rw [h1, Int.natCast_dvd], h2⟩

/-- C39, signed: it returns exactly when the factorisation of the absolute value does; never for 0. -/
theorem factorize_signed_characterised {root : Nat → Nat} (fuel : Nat) (n : Int) :
    ((factorizeSigned root fuel n).isSome ↔ (factorize root fuel n.natAbs).isSome) ∧
    ((factorizeUniqueSigned root fuel n).isSome ↔ (factorizeUnique root fuel n.natAbs).isSome) := by
  simp [factorizeSigned, factorizeUniqueSigned]

/-- C39 fails: the factorisation of 0 does not end. -/
theorem factorize_zero_refuted {root : Nat → Nat} :
    NeverReturns (fun fuel => factorize root fuel 0) ∧ NeverReturns (fun fuel => factorizeUnique root fuel 0) := by
  have e : divideOut 2 0 = none := by unfold divideOut; simp
  constructor <;> intro fuel <;> cases fuel <;> simp [factorize, factorizeUnique, factorLoop, uniqueLoop, e]

example : factorizeSigned Nat.sqrt 50 (-12) = some [2, 2, 3, -1] ∧ factorizeUniqueSigned Nat.sqrt 50 (-12) = some [2, 3, -1] := by
  refine ⟨by decide +kernel, by decide +kernel⟩

/-- C184: a table of factors that can be made is full, has no place left unwritten, and is the ascending list of the prime
factors. -/
theorem factor_table_partial {root : Nat → Nat} (hr : Root root) {fuel n : Nat} {t : List (Option Nat)}
    (h : factorTable root fuel n = some t) :
    ∃ l : List Nat, t = l.map some ∧ l.prod = n ∧ (∀ p ∈ l, p.Prime) ∧ l.Pairwise (· ≤ ·) := by
  rw [factorTable_eq] at h
  obtain ⟨l, hl, h⟩ := Option.bind_eq_some_iff.1 h
  split at h
  · cases h
  · cases h
    exact ⟨l, rfl, factorize_sound_partial hr hl⟩

/-- C184: the same for the table without repetition. -/
theorem unique_factor_table_partial {root : Nat → Nat} (hr : Root root) {fuel n : Nat} {t : List (Option Nat)}
    (h : uniqueFactorTable root fuel n = some t) :
    ∃ l : List Nat, t = l.map some ∧ (∀ p, p ∈ l ↔ p.Prime ∧ p ∣ n) ∧ l.Pairwise (· < ·) := by
  rw [uniqueFactorTable_eq] at h
  obtain ⟨l, hl, h⟩ := Option.bind_eq_some_iff.1 h
  split at h
  · cases h
  · cases h
    exact ⟨l, rfl, factorize_unique_sound_partial hr hl⟩

/-- C184: there is a table exactly when the number is greater than 1 and its factorisation at run time ends. -/
theorem factor_table_characterised {root : Nat → Nat} (hr : Root root) {n : Nat} (hn : 1 ≤ n) :
    (2 ≤ n → (∀ p, p.Prime → p ∣ n → Visits root 2 p) →
      Returns (fun fuel => factorTable root fuel n) (n.primeFactorsList.map some) ∧
      Returns (fun fuel => uniqueFactorTable root fuel n) ((n.primeFactors.sort (· ≤ ·)).map some)) ∧
    (n = 1 ∨ (∃ p, p.Prime ∧ p ∣ n ∧ ¬ Visits root 2 p) →
      NeverReturns (fun fuel => factorTable root fuel n) ∧ NeverReturns (fun fuel => uniqueFactorTable root fuel n)) := by
  constructor
  · intro h2 hv
    constructor
    · obtain ⟨F, hF⟩ := (factorize_characterised hr hn).1 hv
      refine ⟨F, fun fuel hf => ?_⟩
      have := hF fuel hf
      simp only at this ⊢
      rw [factorTable_eq, this, Option.bind_some, if_neg]
      intro e
      have := Nat.prod_primeFactorsList (n := n) (by omega)
      rw [e] at this
      simp at this
      omega
    · obtain ⟨F, hF⟩ := (factorize_unique_characterised hr hn).1 hv
      refine ⟨F, fun fuel hf => ?_⟩
      obtain ⟨l, hl⟩ := hF fuel hf
      obtain ⟨h3, h4⟩ := factorize_unique_sound_partial hr hl
      have e : l = n.primeFactors.sort (· ≤ ·) := by
        refine List.Perm.eq_of_pairwise (le := (· < ·)) (fun a b _ _ h h' => absurd h (by omega)) h4 (Finset.sortedLT_sort _).pairwise ?_
        rw [List.perm_ext_iff_of_nodup (h4.imp (fun h => by omega)) (Finset.sort_nodup _ _)]
        intro p
        rw [h3, Finset.mem_sort, Nat.mem_primeFactors]
        simp [show n ≠ 0 by omega]
      simp only
      rw [uniqueFactorTable_eq, hl, Option.bind_some, if_neg, e]
      rintro rfl
      obtain ⟨p, hp, hd⟩ := Nat.exists_prime_and_dvd (n := n) (by omega)
      have := (h3 p).2 ⟨hp, hd⟩
      simp at this
  · intro h
    constructor <;> intro fuel <;> simp only
    · rw [factorTable_eq]
      cases hf : factorize root fuel n with
      | none => rfl
      | some l =>
        rcases h with rfl | h
        · have := (factorize_sound_partial hr hf)
          rw [Option.bind_some, if_pos]
          cases l with
          | nil => rfl
          | cons p l =>
            have h1 := this.2.1 p (by simp)
            have h2 := this.1
            rw [List.prod_cons] at h2
            have := Nat.eq_one_of_mul_eq_one_right h2
            exact absurd (this ▸ h1) Nat.not_prime_one
        · have := (factorize_characterised hr hn).2 h fuel
          simp only at this
          rw [hf] at this; cases this
    · rw [uniqueFactorTable_eq]
      cases hf : factorizeUnique root fuel n with
      | none => rfl
      | some l =>
        rcases h with rfl | h
        · have := (factorize_unique_sound_partial hr hf).1
          rw [Option.bind_some, if_pos]
          cases l with
          | nil => rfl
          | cons p l =>
            obtain ⟨h1, h2⟩ := (this p).1 (by simp)
            rw [Nat.dvd_one.1 h2] at h1
            exact absurd h1 Nat.not_prime_one
        · have := (factorize_unique_characterised hr hn).2 h fuel
          simp only at this
          rw [hf] at this; cases this

example : factorTable Nat.sqrt 50 12 = some [some 2, some 2, some 3] ∧ uniqueFactorTable Nat.sqrt 50 12 = some [some 2, some 3] := by
  refine ⟨by decide +kernel, by decide +kernel⟩

/-- C184 fails: there are no tables for 1 and for 137. -/
theorem factor_table_refuted {root : Nat → Nat} (hs : ∀ a < 200, root a = Nat.sqrt a) :
    (NeverReturns (fun fuel => factorTable root fuel 1) ∧ NeverReturns (fun fuel => uniqueFactorTable root fuel 1)) ∧
    NeverReturns (fun fuel => factorTable root fuel 137) ∧ NeverReturns (fun fuel => uniqueFactorTable root fuel 137) := by
  obtain ⟨h1, h2⟩ := factorize_refuted hs
  refine ⟨⟨?_, ?_⟩, ?_, ?_⟩ <;> intro fuel <;> simp only
  · rw [factorTable_eq]; cases fuel <;> simp [factorize, factorLoop]
  · rw [uniqueFactorTable_eq]; cases fuel <;> simp [factorizeUnique, uniqueLoop]
  · have := h1 fuel; simp only at this; rw [factorTable_eq, this]; rfl
  · have := h2 fuel; simp only at this; rw [uniqueFactorTable_eq, this]; rfl

end ELC.Arith
