import Verif.Iter.Lemmas
/-!
C148: loops with iterators.  C149: moving iterators.  C150: loops over bit sets.  C151: counted loops.
-/
namespace ELC.Iter
open Spec Lemmas

/-! ### C148 -/

/-- A loop from `begin()` to `end()` sees every element of an array or a string once, in order, and a body that assigns to what it
sees changes every element; whatever the length. -/
theorem forward_correct {A : Type} (c : Container) (f : A → A) (l : List A) (h : l.length < 2 ^ 63) (fuel : Nat) (hf : l.length < fuel) :
    loop f (end' c l.length) fuel (begin' c) l [] = .done l (l.map f) := by
  have key : ∀ k, sign k = 1 → ∀ last : It, last.pos = l.length → loop f last fuel ⟨k, 0⟩ l [] = .done l (l.map f) := by
    intro k hk last hl
    have := loop_up f l hk hl l.length 0 (by omega) fuel hf
    simpa using this
  cases c
  · exact key .ptr rfl _ rfl
  · exact key .idx rfl _ (if_pos h)

/-- A loop from `rbegin()` to `rend()` sees every element once, in reverse order; also of an empty array or string. -/
theorem backward_correct {A : Type} (c : Container) (f : A → A) (l : List A) (h : l.length < 2 ^ 63) (fuel : Nat) (hf : l.length < fuel) :
    loop f (rend c) fuel (rbegin c l.length) l [] = .done l.reverse (l.map f) := by
  have key : ∀ k, sign k = -1 → ∀ last : It, last.pos = -1 → loop f last fuel ⟨k, (l.length : Int) - 1⟩ l [] = .done l.reverse (l.map f) := by
    intro k hk last hl
    have := loop_down f l hk hl l.length (le_refl _) fuel hf
    simpa using this
  cases c
  · exact key .ptrRev rfl _ rfl
  · have := key .idxRev rfl (rend .string) rfl
    rw [← size_minus_one l.length h] at this
    exact this

example : loop (· + 1) (end' .string 3) 9 (begin' .string) [5, 6, 7] [] = .done [5, 6, 7] [6, 7, 8] := by decide +kernel
example : loop (· + 1) (rend .array) 9 (rbegin .array 3) [5, 6, 7] [] = .done [7, 6, 5] [6, 7, 8] := by decide +kernel
example : loop (· + 1) (rend .string) 9 (rbegin .string 0) ([] : List Nat) [] = .done [] [] := by decide +kernel

/-! ### C149 -/

/-- `i+n` is the iterator `n` places on in the direction of `i`, for all four kinds of iterators and all `n`. -/
theorem plus_correct (i : It) (n : Int) : plus i n = moved i n := plus_moved i n

/-- `i-n` is the iterator `n` places back, for all `n` but the smallest number. -/
theorem minus_partial (i : It) (n : Int) (h : n ≠ -2 ^ 63) : minus i n = some (moved i (-n)) := by
  rw [minus, if_neg h, plus_moved]

/-- For the smallest number `i-n` is undefined. -/
theorem minus_refuted (i : It) : ∃ n : Int, -2 ^ 63 ≤ n ∧ n < 2 ^ 63 ∧ minus i n = none := ⟨-2 ^ 63, by norm_num, by norm_num, if_pos rfl⟩

/-- `i-n` for all `n`: undefined for the smallest number, and only for it. -/
theorem minus_characterised (i : It) (n : Int) : minus i n = (if n = -2 ^ 63 then none else some (moved i (-n))) := by
  by_cases h : n = -2 ^ 63
  · rw [if_pos h, minus, if_pos h]
  · rw [if_neg h, minus_partial i n h]

/-- Going there and back again ends where it began, and steps add up. -/
theorem steps_correct (i : It) (m n : Int) (h : n ≠ -2 ^ 63) : minus (plus i n) n = some i ∧ plus (plus i m) n = plus i (m + n) ∧
    dec (inc i) = i ∧ inc (dec i) = i := by
  refine ⟨?_, ?_, ?_, ?_⟩
  · rw [minus_partial _ _ h, plus_moved, moved_moved]
    simp [moved_zero]
  · simp only [plus_moved, moved_moved]
  · rw [inc_moved, dec_moved, moved_moved]; simp [moved_zero]
  · rw [inc_moved, dec_moved, moved_moved]; simp [moved_zero]

/-- `++` and `--` are steps of one; behind the iterator they answer with the old one. -/
theorem inc_correct (i : It) : inc i = moved i 1 ∧ dec i = moved i (-1) ∧ incAfter i = (i, moved i 1) ∧ decAfter i = (i, moved i (-1)) := by
  simp [incAfter, decAfter, inc_moved, dec_moved]

/-- The element at `begin()+n` is the element `n`, and the one at `rbegin()+n` the element `n` from the end. -/
theorem element_correct {A : Type} (c : Container) (l : List A) (h : l.length < 2 ^ 63) (n : Nat) (hn : n < l.length) :
    deref l (plus (begin' c) n) = l[n]? ∧ deref l (plus (rbegin c l.length) n) = l.reverse[n]? := by
  rw [plus_moved, plus_moved]
  constructor
  · cases c <;> simp [begin', moved, sign, deref]
  · have hp : (rbegin c l.length).pos = (l.length : Int) - 1 ∧ sign (rbegin c l.length).kind = -1 := by
      cases c
      · exact ⟨rfl, rfl⟩
      · refine ⟨?_, rfl⟩
        simp only [rbegin]
        rw [size_minus_one _ h]
    unfold deref moved
    dsimp only
    rw [hp.1, hp.2, if_pos (by omega)]
    rw [List.getElem?_reverse (by omega), show ((l.length : Int) - 1 + -1 * n).toNat = l.length - 1 - n by omega]

example : plus ⟨.idxRev, 4⟩ 3 = ⟨.idxRev, 1⟩ := by decide +kernel
example : minus ⟨.ptr, 4⟩ 3 = some ⟨.ptr, 1⟩ := by decide +kernel

/-! ### C150 -/

/-- A loop over a bit set never comes to its end. -/
theorem bits_refuted (b : Bits) (fuel : Nat) : ∀ seen after, b.loop fuel Bits.begin' [] ≠ .done seen after := by
  intro seen after
  have := bits_loop b (8 * b.data.length) 0 (by omega) fuel
  have h0 : upto b 0 = [] := rfl
  rw [h0] at this
  rw [show Bits.begin' = ((0 : Nat) : Int) from rfl, this]
  split <;> simp

/-- What it does: it sees the bits of the bit set in order, then the unused bits of the last byte, and then reads behind the bytes, for
every bit set. -/
theorem bits_characterised (b : Bits) (h : Bits.Ok b) : ∃ unused : List Bool, unused.length < 8 ∧
    (∃ fuel, ∀ n, fuel ≤ n → b.loop n Bits.begin' [] = .undefined (bits b ++ unused)) ∧
    (∀ n, n ≤ b.num → b.loop n Bits.begin' [] = .running ((bits b).take n)) := by
  have key := bits_loop b (8 * b.data.length) 0 (by omega)
  have h0 : upto b 0 = [] := rfl
  rw [h0] at key
  rw [show Bits.begin' = ((0 : Nat) : Int) from rfl]
  unfold Bits.Ok at h
  refine ⟨(upto b (8 * b.data.length)).drop b.num, ?_, ⟨8 * b.data.length + 1, fun n hn => ?_⟩, fun n hn => ?_⟩
  · simp [upto]; omega
  · rw [key n, if_pos (by omega)]
    congr 1
    conv => lhs; rw [← List.take_append_drop b.num (upto b (8 * b.data.length))]
    congr 1
    unfold upto bits
    rw [← List.map_take, List.take_range, Nat.min_eq_left (by omega)]
  · rw [key n, if_neg (by omega)]
    congr 1
    unfold upto bits
    rw [← List.map_take, List.take_range, Nat.min_eq_left (by omega), Nat.zero_add]

/-- The bits a loop sees can be read with `[]` as well: the same, for every index in the range. -/
theorem bits_index (b : Bits) (h : Bits.Ok b) (i : Nat) (hi : i < b.num) : b.get i = (bits b)[i]? := by
  unfold Bits.Ok at h
  rw [get_in b i (by omega)]
  simp [bits, hi]

example : (⟨10, [5, 2]⟩ : Bits).loop 99 Bits.begin' [] = .undefined [true, false, true, false, false, false, false, false, false, true,
    false, false, false, false, false, false] := by decide +kernel
example : Bits.Ok ⟨10, [5, 2]⟩ ∧ bits ⟨10, [5, 2]⟩ = [true, false, true, false, false, false, false, false, false, true] :=
  ⟨rfl, by decide +kernel⟩

/-! ### C151 -/

/-- A loop `for times(n)` carries out its body for 0, 1, …, n-1, whatever the body does, for every type of integers and every number it
has that is not negative. -/
theorem times_partial {S : Type} (t : IntTy) (n : Nat) (h : IntTy.has t n) (body : Int → S → S) (s : S) (fuel : Nat) (hf : n < fuel) :
    times t n body s fuel = .done (counted body n s) := by
  obtain ⟨fuel, rfl⟩ : ∃ k, fuel = k + 1 + n := ⟨fuel - 1 - n, by omega⟩
  rw [times_run0 n ?_ ?_]
  · rw [timesLoop, if_pos rfl]
  · intro k hk
    refine inc_small t k ?_
    unfold IntTy.has at h ⊢
    split
    · rename_i hs
      rw [if_pos hs] at h
      omega
    · rename_i hs
      rw [if_neg hs] at h
      omega
  · intro k hk; omega

/-- A negative number of times is not no times: the counter of an `int` overflows, which is undefined, after the body was carried out
2147483648 times. -/
theorem times_refuted {S : Type} (n : Int) (_h : IntTy.has ⟨32, true⟩ n) (hn : n < 0) (body : Int → S → S) (s : S) (fuel : Nat) (hf : 2 ^ 31 ≤ fuel) :
    times ⟨32, true⟩ n body s fuel = .undefined (counted body (2 ^ 31) s) := by
  obtain ⟨fuel, rfl⟩ : ∃ k, fuel = k + 1 + (2 ^ 31 - 1) := ⟨fuel - 2 ^ 31, by omega⟩
  rw [times_run0 (2 ^ 31 - 1) ?_ ?_]
  · rw [timesLoop, if_neg (by omega)]
    rw [show IntTy.inc ⟨32, true⟩ ((2 ^ 31 - 1 : Nat) : Int) = none by decide +kernel]
    dsimp only
    rw [show (2 : Nat) ^ 31 = 2 ^ 31 - 1 + 1 by norm_num, counted_succ]
    norm_num
  · intro k hk
    refine inc_small _ k ?_
    simp only [IntTy.has]
    norm_num
    omega
  · intro k hk; omega

/-- For all types with sign: a negative number of times is undefined from 32 bits on, and 2^bits + n times for the narrower ones. -/
theorem times_characterised {S : Type} (t : IntTy) (hs : t.signed = true) (hb : 0 < t.bits) (n : Int) (h : IntTy.has t n) (hn : n < 0)
    (body : Int → S → S) (s : S) (fuel : Nat) (hf : 2 ^ t.bits ≤ fuel) :
    times t n body s fuel = if 32 ≤ t.bits then .undefined (counted body (2 ^ (t.bits - 1)) s)
      else .done ((List.range (2 ^ (t.bits - 1) + n).toNat).foldl (fun s (i : Nat) => body (-2 ^ (t.bits - 1) + i) s)
        (counted body (2 ^ (t.bits - 1)) s)) := by
  obtain ⟨b, hbb⟩ : ∃ b, t.bits = b + 1 := ⟨t.bits - 1, by omega⟩
  have h' := h
  unfold IntTy.has at h
  rw [if_pos hs] at h
  rw [hbb, Nat.add_sub_cancel] at h ⊢
  rw [hbb, Nat.pow_succ] at hf
  have hpos : 0 < 2 ^ b := Nat.pow_pos (by norm_num)
  have hpc : ((2 ^ b : Nat) : Int) = 2 ^ b := by push_cast; rfl
  have hinc : ∀ x : Int, t.inc x = if x + 1 = 2 ^ b then (if 32 ≤ b + 1 then none else some (-2 ^ b)) else some (x + 1) := by
    intro x
    unfold IntTy.inc
    rw [if_pos hs, hbb, Nat.add_sub_cancel]
  obtain ⟨fuel, rfl⟩ : ∃ k, fuel = k + 1 + (2 ^ b - 1) := ⟨fuel - 2 ^ b, by omega⟩
  rw [times_run0 (2 ^ b - 1) ?_ ?_]
  · rw [timesLoop, if_neg (by omega), hinc]
    have e1 : ((2 ^ b - 1 : Nat) : Int) = 2 ^ b - 1 := by
      rw [Nat.cast_sub hpos]; push_cast; rfl
    have hcs : body ((2 ^ b - 1 : Nat) : Int) (counted body (2 ^ b - 1) s) = counted body (2 ^ b) s := by
      rw [← counted_succ body]; congr 1; omega
    rw [hcs, if_pos (by rw [e1]; ring)]
    by_cases hw : 32 ≤ b + 1
    · rw [if_pos hw, if_pos hw]
    · rw [if_neg hw, if_neg hw]
      dsimp only
      have hm : n - ((2 ^ b + n).toNat : Int) = -2 ^ b := by
        rw [Int.toNat_of_nonneg (by omega)]; ring
      have := times_low (t := t) (e := n) (body := body) (2 ^ b + n).toNat ?_ (2 ^ b + n).toNat 0 (by omega) fuel (counted body (2 ^ b) s) (by omega)
      · rw [hm] at this
        simp only [Nat.cast_zero, add_zero] at this
        rw [this, List.range_eq_range']
      · intro k hk
        rw [hm, hinc, if_neg (by omega)]
  · intro k hk
    rw [hinc, if_neg (by omega)]
  · intro k hk; omega

/-- A loop inside a loop runs its whole number of times in every round. -/
theorem times_nested (t u : IntTy) (m n : Nat) (hm : IntTy.has t m) (hn : IntTy.has u n) (fuel : Nat) (hf : max m n < fuel) :
    times t m (fun _ (s : Nat) => match times u n (fun _ s => s + 1) s fuel with | .done s => s | _ => 0) 0 fuel = .done (m * n) := by
  have hc : ∀ k s, counted (fun _ (s : Nat) => s + 1) k s = s + k := by
    intro k s
    induction k with
    | zero => rfl
    | succ k ih => rw [counted_succ, ih]; omega
  rw [times_partial t m hm _ 0 fuel (lt_of_le_of_lt (le_max_left _ _) hf)]
  congr 1
  have : ∀ k, counted (fun _ (s : Nat) => match times u n (fun _ s => s + 1) s fuel with | .done s => s | _ => 0) k 0 = k * n := by
    intro k
    induction k with
    | zero => simp [counted]
    | succ k ih =>
      rw [counted_succ, ih, times_partial u n hn _ _ fuel (lt_of_le_of_lt (le_max_right _ _) hf)]
      dsimp only
      rw [hc]; ring
  exact this m

example : times ⟨32, false⟩ 4 (fun i s => s ++ [i]) [] 9 = .done [0, 1, 2, 3] := by decide +kernel
example : IntTy.has ⟨32, true⟩ (-1) ∧ IntTy.has ⟨16, true⟩ 32767 := by simp [IntTy.has]
example : times ⟨3, true⟩ (-2) (fun i s => s ++ [i]) [] 9 = .done [0, 1, 2, 3, -4, -3] := by decide +kernel

end ELC.Iter
