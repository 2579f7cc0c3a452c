import Verif.Arith.Props
/-! Lemmas on the compile-time tables of factors. -/
namespace ELC.Arith
open Spec

theorem countLoop_eq (root : Nat → Nat) : ∀ fuel i m n, countLoop root fuel i m n = (factorLoop root fuel i m).map fun l => n + l.length := by
  intro fuel
  induction fuel with
  | zero => intros; rfl
  | succ f ih =>
    intro i m n
    unfold countLoop factorLoop
    split
    · simp
    · cases divideOut i m with
      | none => rfl
      | some r =>
        simp only [Option.bind_some]
        cases primeAbove root f i with
        | none => rfl
        | some j =>
          simp only [Option.bind_some, ih, Option.map_map]
          congr 1
          funext l
          simp [Nat.add_assoc]

theorem countUniqueLoop_eq (root : Nat → Nat) : ∀ fuel i m n,
    countUniqueLoop root fuel i m n = (uniqueLoop root fuel i m).map fun l => n + l.length := by
  intro fuel
  induction fuel with
  | zero => intros; rfl
  | succ f ih =>
    intro i m n
    unfold countUniqueLoop uniqueLoop
    split
    · simp
    · cases divideOut i m with
      | none => rfl
      | some r =>
        simp only [Option.bind_some]
        cases primeAbove root f i with
        | none => rfl
        | some j =>
          simp only [Option.bind_some, ih, Option.map_map]
          congr 1
          funext l
          by_cases h : r.2 = 0 <;> simp [h]
          omega

/-- Storing into a table whose first elements are written. -/
theorem storeTimes_eq (i : Nat) : ∀ (k : Nat) (a : List Nat) (n : Nat), k ≤ n →
    storeTimes i k (a.map some ++ List.replicate n none) a.length =
      some ((a ++ List.replicate k i).map some ++ List.replicate (n - k) none, a.length + k) := by
  intro k
  induction k with
  | zero => intros; simp [storeTimes]
  | succ k ih =>
    intro a n h
    obtain ⟨n, rfl⟩ : ∃ q, n = q + 1 := ⟨n - 1, by omega⟩
    unfold storeTimes
    rw [if_pos (by simp)]
    have e : (a.map some ++ List.replicate (n + 1) none).set a.length (some i) = (a ++ [i]).map some ++ List.replicate n none := by
      rw [List.set_append_right _ _ (by simp)]
      simp [List.replicate_succ]
    rw [e]
    have := ih (a ++ [i]) n (by omega)
    rw [List.length_append, List.length_singleton] at this
    rw [this, List.append_assoc, List.singleton_append, ← List.replicate_succ]
    rw [show n + 1 - (k + 1) = n - k by omega, show a.length + (k + 1) = a.length + 1 + k by omega]

theorem fillLoop_eq (root : Nat → Nat) : ∀ (fuel i m : Nat) (l : List Nat), factorLoop root fuel i m = some l → ∀ a : List Nat,
    fillLoop root fuel i m (a.map some ++ List.replicate l.length none) a.length = some ((a ++ l).map some) := by
  intro fuel
  induction fuel with
  | zero => intro i m l h; cases h
  | succ f ih =>
    intro i m l h a
    unfold factorLoop at h
    unfold fillLoop
    split at h
    · rename_i h1
      rw [if_pos h1]
      cases h; simp
    · rename_i h1
      rw [if_neg h1]
      obtain ⟨r, hr, h⟩ := Option.bind_eq_some_iff.1 h
      obtain ⟨j, hj, h⟩ := Option.bind_eq_some_iff.1 h
      obtain ⟨l', hl, rfl⟩ := Option.map_eq_some_iff.1 h
      simp only [hr, hj, Option.bind_some]
      rw [storeTimes_eq i r.2 a _ (by simp), Option.bind_some]
      have := ih j r.1 l' hl (a ++ List.replicate r.2 i)
      simp only [List.length_append, List.length_replicate, Nat.add_sub_cancel_left] at this ⊢
      rw [this, List.append_assoc]

theorem fillUniqueLoop_eq (root : Nat → Nat) : ∀ (fuel i m : Nat) (l : List Nat), uniqueLoop root fuel i m = some l → ∀ a : List Nat,
    fillUniqueLoop root fuel i m (a.map some ++ List.replicate l.length none) a.length = some ((a ++ l).map some) := by
  intro fuel
  induction fuel with
  | zero => intro i m l h; cases h
  | succ f ih =>
    intro i m l h a
    unfold uniqueLoop at h
    unfold fillUniqueLoop
    split at h
    · rename_i h1
      rw [if_pos h1]
      cases h; simp
    · rename_i h1
      rw [if_neg h1]
      obtain ⟨r, hr, h⟩ := Option.bind_eq_some_iff.1 h
      obtain ⟨j, hj, h⟩ := Option.bind_eq_some_iff.1 h
      obtain ⟨l', hl, rfl⟩ := Option.map_eq_some_iff.1 h
      simp only [hr, hj, Option.bind_some]
      by_cases h0 : r.2 = 0
      · simp only [h0, if_true, storeTimes, Option.bind_some]
        exact ih j r.1 l' hl a
      · simp only [h0, if_false]
        rw [storeTimes_eq i 1 a _ (by simp), Option.bind_some]
        have := ih j r.1 l' hl (a ++ [i])
        rw [List.length_append, List.length_singleton] at this
        simp only [List.length_cons, Nat.add_sub_cancel, List.replicate_one]
        rw [this, List.append_assoc, List.singleton_append]

theorem factorTable_eq (root : Nat → Nat) (fuel n : Nat) :
    factorTable root fuel n = (factorize root fuel n).bind fun l => if l = [] then none else some (l.map some) := by
  unfold factorTable factorize
  rw [countLoop_eq]
  cases h : factorLoop root fuel 2 n with
  | none => rfl
  | some l =>
    simp only [Option.map_some, Option.bind_some, Nat.zero_add, List.length_eq_zero_iff]
    split
    · rfl
    · exact fillLoop_eq root fuel 2 n l h []

theorem uniqueFactorTable_eq (root : Nat → Nat) (fuel n : Nat) :
    uniqueFactorTable root fuel n = (factorizeUnique root fuel n).bind fun l => if l = [] then none else some (l.map some) := by
  unfold uniqueFactorTable factorizeUnique
  rw [countUniqueLoop_eq]
  cases h : uniqueLoop root fuel 2 n with
  | none => rfl
  | some l =>
    simp only [Option.map_some, Option.bind_some, Nat.zero_add, List.length_eq_zero_iff]
    split
    · rfl
    · exact fillUniqueLoop_eq root fuel 2 n l h []

end ELC.Arith
