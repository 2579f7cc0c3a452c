import Verif.Chars.Model
import Verif.Chars.Spec

/-
The whole table against the ranges of the specification: every code point, by evaluation in the
kernel.  The functions here are written with recursors and the operations on numbers the kernel
computes directly; the lemmas say what they compute.
-/
namespace ELC.Chars

open Spec

/-- `p` holds from `lo` on, `2 ^ k` times. -/
noncomputable def all2 (p : Nat → Bool) (k : Nat) : Nat → Bool :=
  Nat.rec (motive := fun _ => Nat → Bool) (fun lo => p lo)
    (fun k g lo => Bool.rec false (g (Nat.add lo (Nat.pow 2 k))) (g lo)) k

theorem all2_spec (p : Nat → Bool) : ∀ k lo, all2 p k lo = true →
    ∀ i, lo ≤ i → i < lo + 2 ^ k → p i = true := by
  intro k
  induction k with
  | zero =>
    intro lo h i h1 h2
    have : i = lo := by simp at h2; omega
    subst this
    exact h
  | succ k ih =>
    intro lo h i h1 h2
    have e : all2 p (k + 1) lo =
        Bool.rec false (all2 p k (lo + 2 ^ k)) (all2 p k lo) := rfl
    rw [e] at h
    cases hc : all2 p k lo with
    | false => rw [hc] at h; cases h
    | true =>
      rw [hc] at h
      by_cases hi : i < lo + 2 ^ k
      · exact ih lo hc i h1 hi
      · exact ih (lo + 2 ^ k) h i (by omega) (by rw [Nat.pow_succ] at h2; omega)

/-- An element of the array, whatever the index. -/
def fastEntry (i : Nat) : Nat := Nat.mod (Nat.shiftRight tableBits (Nat.mul 16 i)) 65536

theorem propsIndex_fast {i : Nat} (h : i < tableSize) : propsIndex i = some (fastEntry i) := by
  unfold propsIndex
  rw [if_pos h]
  rfl

/-- Thirty-two elements at once. -/
def window (st : Nat) : Nat :=
  Nat.mod (Nat.shiftRight tableBits (Nat.mul 16 st)) (Nat.pow 2 512)

/-- The category of the `j`-th of the thirty-two. -/
def catAt (x j : Nat) : Nat := Nat.mod (Nat.shiftRight x (Nat.mul 16 j)) 32

theorem catAt_window (st j : Nat) (hj : j < 32) : catAt (window st) j = fastEntry (st + j) % 32 := by
  have e1 : catAt (window st) j = (((tableBits >>> (16 * st)) % 2 ^ 512) >>> (16 * j)) % 2 ^ 5 := rfl
  have e2 : fastEntry (st + j) % 32 = ((tableBits >>> (16 * (st + j))) % 2 ^ 16) % 2 ^ 5 := rfl
  rw [e1, e2]
  generalize tableBits = T
  apply Nat.eq_of_testBit_eq
  intro b
  simp only [Nat.testBit_mod_two_pow, Nat.testBit_shiftRight]
  by_cases hb : b < 5
  · have h1 : 16 * j + b < 512 := by omega
    have h2 : b < 16 := by omega
    have h3 : 16 * st + (16 * j + b) = 16 * (st + j) + b := by omega
    simp [hb, h1, h2, h3]
  · simp [hb]

/-- Where the element of the index for the code points `32 s .. 32 s + 31` is. -/
noncomputable def slotIndex (s : Nat) : Nat :=
  Bool.rec (Nat.add (fastEntry (Nat.add 2080 (Nat.div s 64))) (Nat.mod s 64))
    (Bool.rec s (Bool.rec s (Nat.add 320 s) (Nat.ble s 1759)) (Nat.ble 1728 s)) (Nat.ble s 2047)

/-- Where the data for them starts. -/
noncomputable def start (s : Nat) : Nat := Nat.mul (fastEntry (slotIndex s)) 4

/-- The categories looked at, `31` for all the others, `32` for what is no category. -/
noncomputable def kindOf (k : Nat) : Nat :=
  Bool.rec (Bool.rec 31 (Bool.rec (Bool.rec 32 31 (Nat.ble k 29)) k (Nat.ble k 18)) (Nat.ble 12 k)) 9
    (Nat.beq k 9)

/-- The ranges of those categories. -/
def ranges : List (Nat × Nat × Nat) :=
  digits.map (fun r => (r.1, r.2, 9)) ++ spaces.map (fun r => (r.1, r.2, 12)) ++
    lineSeparators.map (fun r => (r.1, r.2, 13)) ++
    paragraphSeparators.map (fun r => (r.1, r.2, 14)) ++ controls.map (fun r => (r.1, r.2, 15)) ++
    formats.map (fun r => (r.1, r.2, 16)) ++ privateUse.map (fun r => (r.1, r.2, 17)) ++
    surrogates.map (fun r => (r.1, r.2, 18))

/-- The category the ranges give to `c`. -/
noncomputable def fold (L : List (Nat × Nat × Nat)) (c : Nat) : Nat :=
  List.rec (motive := fun _ => Nat) 31
    (fun r _ m => Bool.rec m (Bool.rec m r.2.2 (Nat.ble c r.2.1)) (Nat.ble r.1 c)) L

theorem fold_cons (r : Nat × Nat × Nat) (L : List (Nat × Nat × Nat)) (c : Nat) :
    fold (r :: L) c = if r.1 ≤ c ∧ c ≤ r.2.1 then r.2.2 else fold L c := by
  have e : fold (r :: L) c =
    Bool.rec (fold L c) (Bool.rec (fold L c) r.2.2 (Nat.ble c r.2.1)) (Nat.ble r.1 c) := rfl
  rw [e]
  by_cases h1 : r.1 ≤ c
  · rw [Nat.ble_eq_true_of_le h1]
    by_cases h2 : c ≤ r.2.1
    · rw [Nat.ble_eq_true_of_le h2, if_pos ⟨h1, h2⟩]
    · rw [if_neg (fun h => h2 h.2)]
      have : Nat.ble c r.2.1 = false := by
        cases hb : Nat.ble c r.2.1 with
        | false => rfl
        | true => exact absurd (Nat.le_of_ble_eq_true hb) h2
      rw [this]
  · rw [if_neg (fun h => h1 h.1)]
    have : Nat.ble r.1 c = false := by
      cases hb : Nat.ble r.1 c with
      | false => rfl
      | true => exact absurd (Nat.le_of_ble_eq_true hb) h1
    rw [this]

/-- The ranges that meet `lo .. hi`. -/
noncomputable def near (lo hi : Nat) (L : List (Nat × Nat × Nat)) : List (Nat × Nat × Nat) :=
  List.rec (motive := fun _ => List (Nat × Nat × Nat)) []
    (fun r _ m => Bool.rec m (Bool.rec m (r :: m) (Nat.ble lo r.2.1)) (Nat.ble r.1 hi)) L

theorem fold_near (lo hi : Nat) (L : List (Nat × Nat × Nat)) (c : Nat) (h1 : lo ≤ c) (h2 : c ≤ hi) :
    fold (near lo hi L) c = fold L c := by
  induction L with
  | nil => rfl
  | cons r L ih =>
    have e : near lo hi (r :: L) =
      Bool.rec (near lo hi L) (Bool.rec (near lo hi L) (r :: near lo hi L) (Nat.ble lo r.2.1))
        (Nat.ble r.1 hi) := rfl
    rw [e, fold_cons]
    cases ha : Nat.ble r.1 hi with
    | false =>
      have : ¬ r.1 ≤ hi := fun h => by rw [Nat.ble_eq_true_of_le h] at ha; cases ha
      rw [if_neg (by omega)]
      exact ih
    | true =>
      cases hb : Nat.ble lo r.2.1 with
      | false =>
        have : ¬ lo ≤ r.2.1 := fun h => by rw [Nat.ble_eq_true_of_le h] at hb; cases hb
        rw [if_neg (by omega)]
        exact ih
      | true =>
        show fold (r :: near lo hi L) c = _
        rw [fold_cons, ih]

/-- Evaluates the number before the function. -/
noncomputable def strict (f : Nat → Bool) (n : Nat) : Bool :=
  Nat.rec (motive := fun _ => Bool) (f 0) (fun m _ => f (Nat.succ m)) n

theorem strict_eq (f : Nat → Bool) (n : Nat) : strict f n = f n := by cases n <;> rfl

/-- All thirty-two have category `v`. -/
noncomputable def uniform (v x : Nat) : Bool :=
  all2 (fun j => Nat.beq (kindOf (catAt x j)) v) 5 0

/-- The thirty-two code points from `lo` have the categories of the ranges. -/
noncomputable def okBlock (L : List (Nat × Nat × Nat)) (x lo : Nat) : Bool :=
  List.rec (motive := fun _ => Bool) (strict (uniform 31) x)
    (fun r _ _ => Bool.rec (all2 (fun j => Nat.beq (kindOf (catAt x j)) (fold L (Nat.add lo j))) 5 0)
      (strict (uniform r.2.2) x) (Bool.rec false (Nat.ble (Nat.add lo 31) r.2.1) (Nat.ble r.1 lo))) L

theorem okBlock_spec {L : List (Nat × Nat × Nat)} {x lo : Nat} (h : okBlock L x lo = true) :
    ∀ j, j < 32 → kindOf (catAt x j) = fold L (lo + j) := by
  intro j hj
  cases L with
  | nil =>
    have e : okBlock [] x lo = strict (uniform 31) x := rfl
    rw [e, strict_eq] at h
    exact Nat.eq_of_beq_eq_true (all2_spec _ 5 0 h j (by omega) (by omega))
  | cons r L =>
    have e : okBlock (r :: L) x lo =
      Bool.rec (all2 (fun j => Nat.beq (kindOf (catAt x j)) (fold (r :: L) (Nat.add lo j))) 5 0)
      (strict (uniform r.2.2) x)
      (Bool.rec false (Nat.ble (Nat.add lo 31) r.2.1) (Nat.ble r.1 lo)) := rfl
    rw [e] at h
    cases ha : Nat.ble r.1 lo with
    | false =>
      rw [ha] at h
      exact Nat.eq_of_beq_eq_true (all2_spec _ 5 0 h j (by omega) (by omega))
    | true =>
      rw [ha] at h
      cases hb : Nat.ble (Nat.add lo 31) r.2.1 with
      | false =>
        rw [hb] at h
        exact Nat.eq_of_beq_eq_true (all2_spec _ 5 0 h j (by omega) (by omega))
      | true =>
        rw [hb] at h
        have h' : uniform r.2.2 x = true := by rw [← strict_eq (uniform r.2.2)]; exact h
        have h3 := Nat.eq_of_beq_eq_true (all2_spec _ 5 0 h' j (by omega) (by omega))
        have h4 := Nat.le_of_ble_eq_true ha
        have h5 : lo + 31 ≤ r.2.1 := Nat.le_of_ble_eq_true hb
        rw [h3, fold_cons, if_pos (by omega)]

/-- One element of the index: it and its data are inside the array, and the data are right. -/
noncomputable def okSlot (L : List (Nat × Nat × Nat)) (s : Nat) : Bool :=
  Bool.rec false
    (Bool.rec false
      (okBlock (near (Nat.mul 32 s) (Nat.add (Nat.mul 32 s) 31) L) (window (start s)) (Nat.mul 32 s))
      (Nat.ble (Nat.add (start s) 32) 23016))
    (Nat.ble (Nat.succ (slotIndex s)) 23016)

theorem okSlot_spec {L : List (Nat × Nat × Nat)} {s : Nat} (h : okSlot L s = true) :
    slotIndex s < tableSize ∧ start s + 32 ≤ tableSize ∧
      ∀ j, j < 32 → kindOf (fastEntry (start s + j) % 32) = fold L (32 * s + j) := by
  unfold okSlot at h
  cases ha : Nat.ble (Nat.succ (slotIndex s)) 23016 with
  | false => rw [ha] at h; cases h
  | true =>
    rw [ha] at h
    cases hb : Nat.ble (Nat.add (start s) 32) 23016 with
    | false => rw [hb] at h; cases h
    | true =>
      rw [hb] at h
      refine ⟨Nat.le_of_ble_eq_true ha, Nat.le_of_ble_eq_true hb, fun j hj => ?_⟩
      have h1 := okBlock_spec h j hj
      rw [catAt_window _ _ hj] at h1
      rw [h1]
      exact fold_near _ _ L (32 * s + j) (Nat.le_add_right (32 * s) j)
        (Nat.add_le_add_left (by omega) (32 * s))

/-- Sixty-four elements of the index. -/
noncomputable def okChunk (j : Nat) : Bool :=
  (fun L => all2 (okSlot L) 6 (Nat.mul 64 j))
    (near (Nat.mul 2048 j) (Nat.add (Nat.mul 2048 j) 2047) ranges)

theorem okChunk_spec {j : Nat} (h : okChunk j = true) (s : Nat) (h1 : 64 * j ≤ s)
    (h2 : s < 64 * j + 64) : slotIndex s < tableSize ∧ start s + 32 ≤ tableSize ∧
      ∀ j, j < 32 → kindOf (fastEntry (start s + j) % 32) = fold ranges (32 * s + j) := by
  obtain ⟨a, b, c⟩ := okSlot_spec (all2_spec _ 6 _ h s h1 (by show s < 64 * j + 2 ^ 6; omega))
  refine ⟨a, b, fun i hi => ?_⟩
  rw [c i hi]
  have h3 : 2048 * j ≤ 32 * s + i := by omega
  have h4 : 32 * s + i ≤ 2048 * j + 2047 := by omega
  exact fold_near _ _ ranges (32 * s + i) h3 h4

set_option maxRecDepth 10000 in
theorem ok_bmp : all2 okChunk 5 0 = true := by decide +kernel

set_option maxRecDepth 10000 in
theorem ok_supp : all2 okChunk 9 32 = true := by decide +kernel

end ELC.Chars
