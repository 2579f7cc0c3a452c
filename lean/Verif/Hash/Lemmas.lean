import Verif.Hash.Model
import Verif.Hash.Spec
import Mathlib.Data.List.Perm.Basic
import Mathlib.Tactic.IntervalCases

namespace ELC.Hash

theorem getLsbD_rotlNomod (v : Word) (r i : Nat) (hr : r < 64) (hi : i < 64) :
    (rotlNomod v r).getLsbD i = v.getLsbD ((i + 64 - r) % 64) := by
  unfold rotlNomod
  by_cases h0 : r = 0
  · subst h0; simp; congr 1; omega
  · simp only [h0, ne_eq, not_false_eq_true, if_true, BitVec.getLsbD_or, BitVec.getLsbD_shiftLeft,
      BitVec.getLsbD_ushiftRight]
    by_cases h : i < r
    · simp only [h, hi, decide_true, Bool.not_true, Bool.true_and, Bool.false_and, Bool.false_or]
      congr 1; omega
    · have : v.getLsbD (64 - r + i) = false := by
        apply BitVec.getLsbD_of_ge; omega
      simp only [h, hi, this, decide_true, decide_false, Bool.not_false, Bool.true_and, Bool.or_false]
      congr 1; omega

theorem getLsbD_rotateLeft' (v : Word) (r i : Nat) (hi : i < 64) :
    (v.rotateLeft r).getLsbD i = v.getLsbD ((i + 64 - r % 64) % 64) := by
  rw [BitVec.getLsbD_rotateLeft]
  by_cases h : i < r % 64
  · simp only [h, cond_true, decide_true]; congr 1; omega
  · simp only [h, hi, cond_false, decide_false, decide_true, Bool.true_and]; congr 1; omega

theorem rotlNomod_eq (v : Word) (r : Nat) (hr : r < 64) : rotlNomod v r = v.rotateLeft r := by
  apply BitVec.eq_of_getLsbD_eq
  intro i hi
  rw [getLsbD_rotlNomod v r i hr hi, getLsbD_rotateLeft' v r i hi, Nat.mod_eq_of_lt hr]

theorem rotl_eq (v : Word) (r : Nat) : rotl v r = v.rotateLeft r := by
  unfold rotl
  rw [rotlNomod_eq _ _ (Nat.mod_lt _ (by decide)), BitVec.rotateLeft_mod_eq_rotateLeft]

theorem rot_add (v : Word) (a b : Nat) :
    (v.rotateLeft a).rotateLeft b = v.rotateLeft (a + b) := by
  apply BitVec.eq_of_getLsbD_eq
  intro i hi
  rw [getLsbD_rotateLeft' _ _ i hi, getLsbD_rotateLeft' _ _ _ (by omega),
    getLsbD_rotateLeft' _ _ i hi]
  congr 1; omega

theorem rot_xor (v u : Word) (a : Nat) :
    (v ^^^ u).rotateLeft a = v.rotateLeft a ^^^ u.rotateLeft a := by
  apply BitVec.eq_of_getLsbD_eq
  intro i hi
  simp [getLsbD_rotateLeft' _ _ i hi]

theorem rot_zero_word (a : Nat) : (0#64).rotateLeft a = 0#64 := by
  apply BitVec.eq_of_getLsbD_eq
  intro i hi
  simp [getLsbD_rotateLeft' _ _ i hi]

theorem rot_congr (v : Word) {a b : Nat} (h : a % 64 = b % 64) : v.rotateLeft a = v.rotateLeft b := by
  rw [← BitVec.rotateLeft_mod_eq_rotateLeft, h, BitVec.rotateLeft_mod_eq_rotateLeft]

theorem rotIterDec_mod (n : Nat) : rotIterDec 64 ((n + 1) % 64) = n % 64 := by
  unfold rotIterDec
  by_cases h : (n + 1) % 64 = 0 <;> simp [h] <;> omega

theorem foldl_calcStep {α : Type} (h : α → Word) (l : List α) :
    ∀ (acc : Word) (n : Nat), l.length ≤ n →
      l.foldl (calcStep h) (acc, n % 64) =
        (acc ^^^ Spec.arrayHashFrom h (n - l.length) l.reverse, (n - l.length) % 64) := by
  have key : ∀ (xs : List α) (y : α) (i : Nat),
      Spec.arrayHashFrom h i (xs ++ [y]) =
        Spec.arrayHashFrom h i xs ^^^ (h y).rotateLeft (i + xs.length + 1) := by
    intro xs y
    induction xs with
    | nil => intro i; simp [Spec.arrayHashFrom]
    | cons x xs ih =>
      intro i
      simp only [List.cons_append, Spec.arrayHashFrom, ih, List.length_cons, BitVec.xor_assoc]
      congr 3; omega
  induction l with
  | nil => intro acc n _; simp [Spec.arrayHashFrom]
  | cons x xs ih =>
    intro acc n hn
    obtain ⟨m, rfl⟩ : ∃ m, n = m + 1 := ⟨n - 1, by simp at hn; omega⟩
    simp only [List.foldl_cons, calcStep, rotIterDec_mod]
    rw [ih _ m (by simp at hn; omega)]
    have e : m + 1 - (x :: xs).length = m - xs.length := by simp
    rw [e, List.reverse_cons, key, rotlNomod_eq _ _ (Nat.mod_lt _ (by decide)),
      BitVec.rotateLeft_mod_eq_rotateLeft]
    have e2 : m - xs.length + xs.reverse.length + 1 = m + 1 := by
      simp at hn ⊢; omega
    rw [e2, BitVec.xor_assoc, BitVec.xor_comm ((h x).rotateLeft _)]

theorem withCalculatedBefore_eq {α : Type} (h : α → Word) (before : Word) (n : Nat) (a : List α) :
    withCalculatedBefore h before n a = before ^^^ Spec.arrayHashFrom h n a := by
  unfold withCalculatedBefore rotIterInit
  have e : (n + a.length) % 2 ^ 64 % 64 = (n + a.length) % 64 :=
    Nat.mod_mod_of_dvd _ (by decide)
  rw [e, foldl_calcStep h a.reverse before (n + a.length) (by simp)]
  simp

theorem arrayHashFrom_shift {α : Type} (h : α → Word) (a : List α) :
    ∀ i n, Spec.arrayHashFrom h (i + n) a = (Spec.arrayHashFrom h i a).rotateLeft n := by
  induction a with
  | nil => intro i n; simp [Spec.arrayHashFrom, rot_zero_word]
  | cons x xs ih =>
    intro i n
    simp only [Spec.arrayHashFrom, rot_xor, rot_add]
    rw [← ih]
    congr 2 <;> omega

theorem arrayHashFrom_append {α : Type} (h : α → Word) (a b : List α) :
    ∀ i, Spec.arrayHashFrom h i (a ++ b) =
      Spec.arrayHashFrom h i a ^^^ Spec.arrayHashFrom h (i + a.length) b := by
  induction a with
  | nil => intro i; simp [Spec.arrayHashFrom]
  | cons x xs ih =>
    intro i
    simp only [List.cons_append, Spec.arrayHashFrom, ih, List.length_cons, BitVec.xor_assoc]
    congr 3; omega

/-- XOR of `v` rotated by `i+1, …, i+n`. -/
def rotSum (v : Word) (i : Nat) : Nat → Word
  | 0 => 0#64
  | n + 1 => rotSum v i n ^^^ v.rotateLeft (i + n + 1)

theorem arrayHashFrom_replicate {α : Type} (h : α → Word) (x : α) (n i : Nat) :
    Spec.arrayHashFrom h i (List.replicate n x) = rotSum (h x) i n := by
  induction n with
  | zero => rfl
  | succ n ih =>
    rw [List.replicate_succ', arrayHashFrom_append, ih]
    simp [Spec.arrayHashFrom, rotSum]

theorem rotSum_add (v : Word) (i m n : Nat) :
    rotSum v i (m + n) = rotSum v i m ^^^ rotSum v (i + m) n := by
  induction n with
  | zero => simp [rotSum]
  | succ n ih =>
    rw [← Nat.add_assoc]
    simp only [rotSum, ih, BitVec.xor_assoc]
    congr 3; omega

theorem rotSum_congr (v : Word) {i j : Nat} (h : i % 64 = j % 64) (n : Nat) :
    rotSum v i n = rotSum v j n := by
  induction n with
  | zero => rfl
  | succ n ih => simp only [rotSum, ih]; congr 1; exact rot_congr v (by omega)

/-- Parity of a list of bits. -/
def parity (l : List Bool) : Bool := l.foldr Bool.xor false

theorem parity_perm {l₁ l₂ : List Bool} (h : l₁.Perm l₂) : parity l₁ = parity l₂ := by
  unfold parity
  induction h with
  | nil => rfl
  | cons x _ ih => simp [ih]
  | swap x y l => simp [Bool.xor_left_comm]
  | trans _ _ ih1 ih2 => exact ih1.trans ih2

theorem parity_map_countP {α : Type} (f : α → Bool) (l : List α) :
    parity (l.map f) = (l.countP f % 2 != 0) := by
  induction l with
  | nil => rfl
  | cons x xs ih =>
    have hc : parity (List.map f (x :: xs)) = Bool.xor (f x) (parity (List.map f xs)) := rfl
    rw [hc, ih, List.countP_cons]
    cases hx : f x
    · simp
    · simp only [if_true]
      rcases Nat.mod_two_eq_zero_or_one (List.countP f xs) with h | h
      · have : (List.countP f xs + 1) % 2 = 1 := by omega
        simp [h, this]
      · have : (List.countP f xs + 1) % 2 = 0 := by omega
        simp [h, this]

theorem getLsbD_rotSum (v : Word) (n k : Nat) (hk : k < 64) :
    (rotSum v 0 n).getLsbD k =
      parity ((List.range n).map fun j => v.getLsbD ((k + 64 - (j + 1) % 64) % 64)) := by
  induction n with
  | zero => simp [rotSum, parity]
  | succ n ih =>
    rw [rotSum, BitVec.getLsbD_xor, ih, List.range_succ, List.map_append,
      parity_perm List.perm_append_comm, getLsbD_rotateLeft' _ _ _ hk]
    simp [parity, Bool.xor_comm]

theorem range_perm : ∀ k < 64,
    ((List.range 64).map fun j => (k + 64 - (j + 1) % 64) % 64).Perm (List.range 64) := by
  decide +kernel

theorem rotSum_64 (v : Word) :
    rotSum v 0 64 = if popcount v % 2 != 0 then BitVec.allOnes 64 else 0#64 := by
  apply BitVec.eq_of_getLsbD_eq
  intro k hk
  rw [getLsbD_rotSum _ _ _ hk]
  have h1 : ((List.range 64).map fun j => v.getLsbD ((k + 64 - (j + 1) % 64) % 64)) =
      ((List.range 64).map fun j => (k + 64 - (j + 1) % 64) % 64).map v.getLsbD := by
    rw [List.map_map]; rfl
  rw [h1, parity_perm ((range_perm k hk).map _), parity_map_countP]
  have hp : List.countP v.getLsbD (List.range 64) = popcount v := rfl
  rw [hp]
  by_cases h : (popcount v % 2 != 0) = true
  · simp only [h, if_true, BitVec.getLsbD_allOnes, hk, decide_true]
  · simp only [Bool.not_eq_true] at h
    simp [h]

theorem rotSum_128 (v : Word) : rotSum v 0 128 = 0#64 := by
  rw [show 128 = 64 + 64 from rfl, rotSum_add, rotSum_congr v (i := 0 + 64) (j := 0) (by decide),
    BitVec.xor_self]

theorem rotSum_mod (v : Word) (n : Nat) : rotSum v 0 (n % 128) = rotSum v 0 n := by
  induction n using Nat.strongRecOn with
  | ind n ih =>
    by_cases h : n < 128
    · rw [Nat.mod_eq_of_lt h]
    · have := ih (n - 128) (by omega)
      rw [show n % 128 = (n - 128) % 128 by omega, this]
      conv_rhs => rw [show n = 128 + (n - 128) by omega, rotSum_add, rotSum_128,
        rotSum_congr v (i := 0 + 128) (j := 0) (by decide)]
      simp

theorem rotSum_zero_word (i n : Nat) : rotSum 0#64 i n = 0#64 := by
  induction n with
  | zero => rfl
  | succ n ih => simp [rotSum, ih, rot_zero_word]

theorem repeatLoop_eq (v : Word) (n : Nat) : ∀ acc,
    repeatLoop v n (n % 64) acc = acc ^^^ rotSum v 0 n := by
  induction n with
  | zero => intro acc; simp [repeatLoop, rotSum]
  | succ n ih =>
    intro acc
    rw [repeatLoop, rotIterDec_mod, ih, rotlNomod_eq _ _ (Nat.mod_lt _ (by decide)),
      BitVec.rotateLeft_mod_eq_rotateLeft, rotSum, Nat.zero_add, BitVec.xor_assoc]
    congr 1; rw [BitVec.xor_comm]

theorem repeatTimes_eq (v : Word) (n : Nat) : repeatTimes v n = rotSum v 0 n := by
  unfold repeatTimes
  rw [← rotSum_mod]
  have hlt : n % (64 * 2) < 128 := Nat.mod_lt _ (by decide)
  have e : n % 128 = n % (64 * 2) := rfl
  rw [e]
  generalize n % (64 * 2) = m at hlt
  simp only [Bool.or_eq_true, beq_iff_eq]
  by_cases hv : v = 0#64
  · subst hv; simp [rotSum_zero_word]
  by_cases hm : m = 0
  · subst hm; simp [rotSum]
  simp only [hv, hm, or_self, if_false, ge_iff_le]
  by_cases h64 : 64 ≤ m
  · simp only [h64, if_true]
    have hs : rotSum v 0 m = rotSum v 0 64 ^^^ rotSum v 0 (m - 64) := by
      conv_lhs => rw [show m = 64 + (m - 64) by omega, rotSum_add,
        rotSum_congr v (i := 0 + 64) (j := 0) (by decide)]
    rw [hs, rotSum_64]
    by_cases h0 : m - 64 = 0
    · simp [h0, rotSum]
    · simp only [h0, if_false]
      exact repeatLoop_eq v (m - 64) _
  · simp only [h64, if_false, hm]
    have := repeatLoop_eq v m 0#64
    rw [rotIterInit, this, BitVec.zero_xor]

end ELC.Hash
