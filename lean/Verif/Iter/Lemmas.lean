import Verif.Iter.Spec
import Mathlib.Tactic.Ring
import Mathlib.Tactic.Linarith
namespace ELC.Iter.Lemmas
open ELC.Iter ELC.Iter.Spec

theorem inc_moved (i : It) : inc i = moved i 1 := by
  obtain ⟨k, p⟩ := i; cases k <;> simp [inc, moved, nextGetter, sign] <;> rfl

theorem dec_moved (i : It) : dec i = moved i (-1) := by
  obtain ⟨k, p⟩ := i; cases k <;> simp [dec, moved, beforeGetter, sign] <;> rfl

theorem moved_moved (i : It) (m n : Int) : moved (moved i m) n = moved i (m + n) := by
  simp only [moved, It.mk.injEq, true_and]; ring

theorem moved_zero (i : It) : moved i 0 = i := by simp [moved]

theorem plusUp_moved : ∀ (n : Nat) (i : It), plusUp i n = moved i n
  | 0, i => by simp [plusUp, moved_zero]
  | n + 1, i => by
    rw [plusUp, plusUp_moved n, inc_moved, moved_moved]
    congr 1; push_cast; ring

theorem plusDown_moved : ∀ (n : Nat) (i : It), plusDown i n = moved i (-n)
  | 0, i => by simp [plusDown, moved_zero]
  | n + 1, i => by
    rw [plusDown, plusDown_moved n, dec_moved, moved_moved]
    congr 1; push_cast; ring

theorem plus_moved (i : It) (n : Int) : plus i n = moved i n := by
  have key : (if n > 0 then plusUp i n.toNat else plusDown i (-n).toNat) = moved i n := by
    split
    · rw [plusUp_moved, Int.toNat_of_nonneg (by omega)]
    · rw [plusDown_moved, Int.toNat_of_nonneg (by omega), neg_neg]
  obtain ⟨k, p⟩ := i
  cases k
  · simp [plus, moved, sign]
  all_goals exact key

/-! ### Loops -/

/-- Going up from place `k`, everything before `k` done. -/
theorem loop_up {A : Type} (f : A → A) (l : List A) {k : Kind} (hk : sign k = 1) {last : It} (hl : last.pos = l.length) :
    ∀ (d n : Nat), n + d = l.length → ∀ fuel, d < fuel →
    loop f last fuel ⟨k, n⟩ ((l.take n).map f ++ l.drop n) (l.take n) = .done l (l.map f)
  | 0, n, hn, fuel, hf => by
    obtain ⟨fuel, rfl⟩ : ∃ m, fuel = m + 1 := ⟨fuel - 1, by omega⟩
    rw [loop, if_pos (by rw [hl]; simp; omega)]
    rw [List.take_of_length_le (by omega), List.drop_of_length_le (by omega), List.append_nil]
  | d + 1, n, hn, fuel, hf => by
    obtain ⟨fuel, rfl⟩ : ∃ m, fuel = m + 1 := ⟨fuel - 1, by omega⟩
    have hlt : n < l.length := by omega
    rw [loop, if_neg (by rw [hl]; simp; omega)]
    have hd : deref ((l.take n).map f ++ l.drop n) ⟨k, n⟩ = some l[n] := by
      unfold deref
      rw [if_pos (by simp)]
      simp only [Int.toNat_natCast]
      rw [List.getElem?_append_right (by simp)]
      simp [hlt, Nat.min_eq_left (Nat.le_of_lt hlt)]
    rw [hd]
    dsimp only
    have hi : inc ⟨k, n⟩ = ⟨k, ((n + 1 : Nat) : Int)⟩ := by
      rw [inc_moved]; simp [moved, hk]
    have hs : ((l.take n).map f ++ l.drop n).set n (f l[n]) = (l.take (n + 1)).map f ++ l.drop (n + 1) := by
      rw [List.set_append_right _ _ (by simp)]
      rw [List.drop_eq_getElem_cons hlt]
      simp only [List.length_map, List.length_take, Nat.min_eq_left (Nat.le_of_lt hlt), Nat.sub_self, List.set_cons_zero]
      rw [List.take_succ_eq_append_getElem hlt, List.map_append, List.append_assoc]
      rfl
    have ht : l.take n ++ [l[n]] = l.take (n + 1) := (List.take_succ_eq_append_getElem hlt).symm
    rw [hi, Int.toNat_natCast, hs, ht]
    exact loop_up f l hk hl d (n + 1) (by omega) fuel (by omega)

/-- Going down from place `n`-1, everything from `n` on done. -/
theorem loop_down {A : Type} (f : A → A) (l : List A) {k : Kind} (hk : sign k = -1) {last : It} (hl : last.pos = -1) :
    ∀ (n : Nat), n ≤ l.length → ∀ fuel, n < fuel →
    loop f last fuel ⟨k, (n : Int) - 1⟩ (l.take n ++ (l.drop n).map f) (l.drop n).reverse = .done l.reverse (l.map f)
  | 0, _, fuel, hf => by
    obtain ⟨fuel, rfl⟩ : ∃ m, fuel = m + 1 := ⟨fuel - 1, by omega⟩
    rw [loop, if_pos (by rw [hl]; simp)]
    simp
  | n + 1, hn, fuel, hf => by
    obtain ⟨fuel, rfl⟩ : ∃ m, fuel = m + 1 := ⟨fuel - 1, by omega⟩
    have hlt : n < l.length := by omega
    have hp : ((n + 1 : Nat) : Int) - 1 = n := by push_cast; ring
    rw [hp, loop, if_neg (by rw [hl]; dsimp only; omega)]
    have hd : deref (l.take (n + 1) ++ (l.drop (n + 1)).map f) ⟨k, n⟩ = some l[n] := by
      unfold deref
      rw [if_pos (by simp)]
      simp only [Int.toNat_natCast]
      rw [List.getElem?_append_left (by simp; omega), List.getElem?_take]
      simp [hlt]
    rw [hd]
    dsimp only
    have hi : inc ⟨k, n⟩ = ⟨k, (n : Int) - 1⟩ := by
      rw [inc_moved]; simp [moved, hk]; ring
    have hs : (l.take (n + 1) ++ (l.drop (n + 1)).map f).set n (f l[n]) = l.take n ++ (l.drop n).map f := by
      rw [List.set_append_left _ _ (by simp; omega)]
      rw [List.take_succ_eq_append_getElem hlt, List.set_append_right _ _ (by simp)]
      simp only [List.length_take, Nat.min_eq_left (Nat.le_of_lt hlt), Nat.sub_self, List.set_cons_zero]
      rw [List.drop_eq_getElem_cons hlt, List.map_cons, List.append_assoc]
      rfl
    have ht : (l.drop (n + 1)).reverse ++ [l[n]] = (l.drop n).reverse := by
      rw [List.drop_eq_getElem_cons hlt, List.reverse_cons]
    rw [hi, Int.toNat_natCast, hs, ht]
    exact loop_down f l hk hl n (by omega) fuel (by omega)

theorem size_minus_one (n : Nat) (h : n < 2 ^ 63) : ptrdiff (sizeMinusOne n) = (n : Int) - 1 := by
  unfold ptrdiff sizeMinusOne
  rcases Nat.eq_zero_or_pos n with rfl | hp
  · norm_num
  · have : (n + (2 ^ 64 - 1)) % 2 ^ 64 = n - 1 := by omega
    rw [this, if_pos (by omega)]
    omega

/-! ### Bits -/

theorem get_in (b : Bits) (i : Nat) (h : i < 8 * b.data.length) : b.get i = some ((b.data[i / 8]?.getD 0).testBit (i % 8)) := by
  unfold Bits.get
  have : i / 8 < b.data.length := by omega
  simp [this]

theorem get_out (b : Bits) (i : Nat) (h : 8 * b.data.length ≤ i) : b.get i = none := by
  unfold Bits.get
  have : b.data.length ≤ i / 8 := by omega
  simp [this]

/-- The bits in the bytes from the first up to place `n`. -/
def upto (b : Bits) (n : Nat) : List Bool := (List.range n).map fun i => ((b.data[i / 8]?).getD 0).testBit (i % 8)

theorem bits_loop (b : Bits) : ∀ (d n : Nat), n + d = 8 * b.data.length → ∀ fuel,
    b.loop fuel n (upto b n) = if d < fuel then .undefined (upto b (8 * b.data.length)) else .running (upto b (n + fuel))
  | d, n, hn, 0 => by rw [if_neg (by omega)]; rfl
  | 0, n, hn, fuel + 1 => by
    rw [Bits.loop, if_neg (by unfold Bits.end'; omega), Int.toNat_natCast, get_out b n (by omega), if_pos (by omega)]
    have : n = 8 * b.data.length := by omega
    rw [this]
  | d + 1, n, hn, fuel + 1 => by
    rw [Bits.loop, if_neg (by unfold Bits.end'; omega), Int.toNat_natCast, get_in b n (by omega)]
    dsimp only
    have hu : upto b n ++ [((b.data[n / 8]?).getD 0).testBit (n % 8)] = upto b (n + 1) := by
      simp [upto, List.range_succ]
    rw [hu, show (n : Int) + 1 = ((n + 1 : Nat) : Int) by push_cast; ring, bits_loop b d (n + 1) (by omega) fuel]
    by_cases h : d < fuel
    · rw [if_pos h, if_pos (by omega)]
    · rw [if_neg h, if_neg (by omega), show n + 1 + fuel = n + (fuel + 1) by omega]

/-! ### Counted loops -/

theorem counted_succ {S : Type} (body : Int → S → S) (n : Nat) (s : S) : counted body (n + 1) s = body n (counted body n s) := by
  simp [counted, List.range_succ]

/-- As long as the counter does not come to an end of the type. -/
theorem times_run {S : Type} {t : IntTy} {e : Int} {body : Int → S → S} {s : S} (m : Nat)
    (hi : ∀ k < m, t.inc (k : Int) = some ((k : Int) + 1)) (hne : ∀ k < m, (k : Int) ≠ e) : ∀ (d n : Nat), n + d = m → ∀ fuel,
    timesLoop t e body (fuel + d) n (counted body n s) = timesLoop t e body fuel m (counted body m s)
  | 0, n, h, fuel => by
    obtain rfl : n = m := by omega
    rfl
  | d + 1, n, h, fuel => by
    rw [← Nat.add_assoc, timesLoop, if_neg (hne n (by omega)), hi n (by omega)]
    rw [← counted_succ body n s]
    have := times_run (s := s) (body := body) m hi hne d (n + 1) (by omega) fuel
    push_cast at this
    exact this

theorem times_run0 {S : Type} {t : IntTy} {e : Int} {body : Int → S → S} {s : S} (m : Nat)
    (hi : ∀ k < m, t.inc (k : Int) = some ((k : Int) + 1)) (hne : ∀ k < m, (k : Int) ≠ e) (fuel : Nat) :
    times t e body s (fuel + m) = timesLoop t e body fuel m (counted body m s) := by
  have := times_run (s := s) (body := body) m hi hne m 0 (by omega) fuel
  simpa [times, counted] using this

theorem inc_small (t : IntTy) (x : Int) (h : IntTy.has t (x + 1)) : t.inc x = some (x + 1) := by
  unfold IntTy.inc
  unfold IntTy.has at h
  split
  · rename_i hs
    rw [if_pos hs] at h
    rw [if_neg (by omega)]
  · rename_i hs
    rw [if_neg hs] at h
    rw [if_neg (by omega)]

/-- The counter of a narrow type with sign that goes up from its smallest value. -/
theorem times_low {S : Type} {t : IntTy} {e : Int} {body : Int → S → S} (m : Nat)
    (hi : ∀ k < m, t.inc (e - m + k) = some (e - m + k + 1)) : ∀ (d n : Nat), n + d = m → ∀ fuel s, d < fuel →
    timesLoop t e body fuel (e - m + n) s = .done ((List.range' n d).foldl (fun s (i : Nat) => body (e - m + i) s) s)
  | 0, n, h, fuel, s, hf => by
    obtain ⟨fuel, rfl⟩ : ∃ k, fuel = k + 1 := ⟨fuel - 1, by omega⟩
    rw [timesLoop, if_pos (by omega)]; rfl
  | d + 1, n, h, fuel, s, hf => by
    obtain ⟨fuel, rfl⟩ : ∃ k, fuel = k + 1 := ⟨fuel - 1, by omega⟩
    rw [timesLoop, if_neg (by omega), hi n (by omega)]
    dsimp only
    have := times_low (body := body) m hi d (n + 1) (by omega) fuel (body (e - m + n) s) (by omega)
    rw [show e - (m : Int) + n + 1 = e - m + ((n + 1 : Nat) : Int) by push_cast; ring, this]
    rfl

end ELC.Iter.Lemmas
