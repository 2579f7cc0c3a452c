/-
Lemmas about filling.
-/
import Verif.Fill.Model
import Verif.Fill.Spec
import Mathlib.Tactic.NormNum

namespace ELC.Fill
open Spec

/-- The bytes of `n` copies of `v`, one after the other. -/
def copies (v : List Nat) : Nat → List Nat
  | 0 => []
  | n+1 => v ++ copies v n

theorem copies_length {v : List Nat} : ∀ n, (copies v n).length = n * v.length
  | 0 => by simp [copies]
  | n+1 => by simp [copies, copies_length n, Nat.succ_mul, Nat.add_comm]

theorem copies_element {v : List Nat} : ∀ {n i : Nat} {r : List Nat}, i < n →
    element v.length (copies v n ++ r) i = v
  | n+1, 0, r, _ => by simp [element, copies, List.append_assoc]
  | n+1, i+1, r, h => by
      have := copies_element (v := v) (r := r) (Nat.lt_of_succ_lt_succ h)
      simp only [element, copies, List.append_assoc, Nat.succ_mul, Nat.add_comm (i * v.length)] at *
      rw [← List.drop_drop, List.drop_left]
      exact this

theorem filled_copies {size n : Nat} {v mem : List Nat} (hv : v.length = size) (hm : n * size ≤ mem.length) :
    Filled size n v mem (copies v n ++ mem.drop (n * size)) := by
  subst hv
  refine ⟨by simp [copies_length]; omega, fun i hi => copies_element hi, ?_⟩
  have h : (copies v n).length = n * v.length := copies_length n
  exact List.drop_left' h

theorem filled_first {size n : Nat} {v w mem : List Nat} (hw : w.length = size) (h0 : 0 < n)
    (h : Filled size n v mem (copies w n ++ mem.drop (n * size))) : w = v := by
  subst hw
  exact (copies_element h0).symm.trans (h.2.1 0 h0)

theorem isAllByteZero_iff : ∀ {v : List Nat}, isAllByteZero v = true ↔ ∀ b ∈ v, b = 0
  | [] => by simp [isAllByteZero]
  | b :: l => by
      by_cases h : b = 0
      · simp [isAllByteZero, h, isAllByteZero_iff (v := l)]
      · simp [isAllByteZero, h]

theorem zeros_eq {v : List Nat} (h : ∀ b ∈ v, b = 0) : v = List.replicate v.length 0 :=
  List.eq_replicate_iff.2 ⟨rfl, h⟩

theorem copies_replicate (c k : Nat) : ∀ n, copies (List.replicate k c) n = List.replicate (n * k) c
  | 0 => by simp [copies]
  | n+1 => by
      rw [copies, copies_replicate c k n, List.replicate_append_replicate, Nat.succ_mul, Nat.add_comm]

theorem memset_eq (c n : Nat) (mem : List Nat) : memset c n mem = copies [c] n ++ mem.drop (n * 1) := by
  have := copies_replicate c 1 n
  rw [Nat.mul_one] at *
  simp only [List.replicate_one] at this
  rw [memset, this]

theorem bytes_length : ∀ n c, (bytes n c).length = n
  | 0, _ => rfl
  | n+1, c => by simp [bytes, bytes_length n]

theorem wmemset_eq (c : Nat) : ∀ n mem, wmemset c n mem = copies (bytes 4 c) n ++ mem.drop (n * 4)
  | 0, mem => by simp [wmemset, copies]
  | n+1, mem => by
      rw [wmemset, wmemset_eq c n, copies, List.append_assoc, List.drop_drop]
      congr 3; omega

theorem fillN_eq (T : Ty) (v : List Nat) : ∀ n mem, fillN T v n mem = copies v n ++ mem.drop (n * T.size)
  | 0, mem => by simp [fillN, copies]
  | n+1, mem => by
      rw [fillN, fillN_eq T v n, copies, List.append_assoc, List.drop_drop]
      congr 3; rw [Nat.succ_mul, Nat.add_comm]

theorem copies_succ (v : List Nat) : ∀ n, copies v (n+1) = copies v n ++ v
  | 0 => by simp [copies]
  | n+1 => by
      have h := copies_succ v n
      calc copies v (n+1+1) = v ++ copies v (n+1) := rfl
        _ = v ++ (copies v n ++ v) := by rw [h]
        _ = copies v (n+1) ++ v := by simp [copies, List.append_assoc]

theorem constructLoop_eq (T : Ty) (v : List Nat) (hv : v.length = T.size) : ∀ n mem, n * T.size ≤ mem.length →
    constructLoop T v n mem = copies v n ++ mem.drop (n * T.size)
  | 0, mem, _ => by simp [constructLoop, copies]
  | n+1, mem, h => by
      have hs : (n + 1) * T.size = n * T.size + T.size := Nat.succ_mul ..
      have hl : (mem.take (n * T.size)).length = n * T.size := by
        rw [List.length_take]; omega
      rw [constructLoop, constructLoop_eq T v hv n]
      · rw [copies_succ, List.append_assoc, store, List.append_assoc]
        congr 1
        exact List.drop_left' hl
      · simp only [store, List.length_append, List.length_drop, hl]; omega

theorem number_bytes : ∀ n c, number (bytes n c) = c % 256 ^ n
  | 0, c => by simp [bytes, number, Nat.mod_one]
  | n+1, c => by
      rw [bytes, number, number_bytes n, Nat.pow_succ, Nat.mul_comm (256 ^ n), Nat.mod_mul]

theorem bytes_number : ∀ {v : List Nat}, (∀ b ∈ v, b < 256) → bytes v.length (number v) = v
  | [], _ => rfl
  | b :: l, h => by
      have hb : b < 256 := h b (by simp)
      have hl := bytes_number (v := l) (fun x hx => h x (by simp [hx]))
      have h1 : (b + 256 * number l) % 256 = b := by omega
      have h2 : (b + 256 * number l) / 256 = number l := by omega
      simp only [List.length_cons, bytes, number, h1, h2, hl]

theorem bytes_mod : ∀ n c, bytes n (c % 256 ^ n) = bytes n c
  | 0, _ => rfl
  | n+1, c => by
      have h1 : c % 256 ^ (n+1) % 256 = c % 256 := Nat.mod_mod_of_dvd _ ⟨256 ^ n, by rw [Nat.pow_succ, Nat.mul_comm]⟩
      have h2 : c % 256 ^ (n+1) / 256 = c / 256 % 256 ^ n := by
        rw [Nat.pow_succ, Nat.mul_comm, Nat.mod_mul_right_div_self]
      simp only [bytes, h1, h2, bytes_mod n]

theorem bytes_eq_iff {v : List Nat} (h : ∀ b ∈ v, b < 256) (c : Nat) :
    bytes v.length c = v ↔ c % 256 ^ v.length = number v := by
  constructor
  · intro e
    rw [← number_bytes, e]
  · intro e
    rw [← bytes_mod, e, bytes_number h]

/-- What filling stores in every element. -/
def stored (T : Ty) (v : List Nat) : Option (List Nat) :=
  if T.size = 1 ∨ T.size = 4 then (T.conv v).map (bytes T.size) else some v

theorem fill_stored {T : Ty} {v : List Nat} (hv : v.length = T.size) (n : Nat) (mem : List Nat) :
    fill T v n mem = (stored T v).map fun w => copies w n ++ mem.drop (n * T.size) := by
  unfold fill stored
  by_cases h1 : T.size = 1
  · rw [if_pos h1, if_pos (Or.inl h1), Option.map_map]
    congr 1
    funext c
    simp [h1, bytes, memset_eq]
  · rw [if_neg h1]
    by_cases h4 : T.size = 4
    · rw [if_pos h4, if_pos (Or.inr h4), Option.map_map]
      congr 1
      funext c
      simp [h4, wmemset_eq]
    · rw [if_neg h4, if_neg (show ¬ (T.size = 1 ∨ T.size = 4) by omega)]
      by_cases hz : isAllByteZero v = true
      · rw [if_pos hz, Option.map_some, memset]
        have := zeros_eq (isAllByteZero_iff.1 hz)
        rw [this, copies_replicate, hv]
      · rw [if_neg hz, Option.map_some, fillN_eq]

theorem stored_length {T : Ty} {v w : List Nat} (hv : v.length = T.size) (h : stored T v = some w) : w.length = T.size := by
  unfold stored at h
  split at h
  · obtain ⟨c, _, rfl⟩ := Option.map_eq_some_iff.1 h
    exact bytes_length _ _
  · cases h; exact hv

theorem floatToInt_range {d r : Nat} (h : floatToInt d = some r) : r < 2 ^ 32 := by
  simp only [floatToInt] at h
  by_cases he : d / 2 ^ 23 % 256 = 255
  · rw [if_pos he] at h; cases h
  · rw [if_neg he] at h
    generalize (if d / 2 ^ 23 % 256 = 0 then _ else _ : Nat) = a at h
    by_cases hn : d / 2 ^ 31 = 0
    · rw [if_pos hn] at h
      by_cases ha : a < 2 ^ 31
      · rw [if_pos ha] at h; cases h; omega
      · rw [if_neg ha] at h; cases h
    · rw [if_neg hn] at h
      by_cases ha : a ≤ 2 ^ 31
      · rw [if_pos ha] at h; cases h; omega
      · rw [if_neg ha] at h; cases h

theorem no_positive {e m : Nat} (h1 : 150 ≤ e) (h2 : e < 159) (hm : m < 2 ^ 23) (ha : (2 ^ 23 + m) * 2 ^ (e - 150) < 2 ^ 31) :
    (2 ^ 23 + m) * 2 ^ (e - 150) ≠ e * 2 ^ 23 + m := by
  have : e = 150 ∨ e = 151 ∨ e = 152 ∨ e = 153 ∨ e = 154 ∨ e = 155 ∨ e = 156 ∨ e = 157 ∨ e = 158 := by omega
  rcases this with rfl | rfl | rfl | rfl | rfl | rfl | rfl | rfl | rfl <;> norm_num1 at * <;> omega

theorem no_negative {e m : Nat} (h1 : 150 ≤ e) (h2 : e < 159) (hm : m < 2 ^ 23) (ha : (2 ^ 23 + m) * 2 ^ (e - 150) ≤ 2 ^ 31) :
    (2 ^ 23 + m) * 2 ^ (e - 150) + (2 ^ 31 + e * 2 ^ 23 + m) ≠ 2 ^ 32 := by
  have : e = 150 ∨ e = 151 ∨ e = 152 ∨ e = 153 ∨ e = 154 ∨ e = 155 ∨ e = 156 ∨ e = 157 ∨ e = 158 := by omega
  rcases this with rfl | rfl | rfl | rfl | rfl | rfl | rfl | rfl | rfl <;> norm_num1 at * <;> omega

/-- No `float` but zero has the bits of the integer it is converted to. -/
theorem floatToInt_fixed {d : Nat} (hd : d < 2 ^ 32) : floatToInt d = some d ↔ d = 0 := by
  refine ⟨fun h => ?_, fun h => by subst h; decide +kernel⟩
  simp only [floatToInt] at h
  by_cases he : d / 2 ^ 23 % 256 = 255
  · rw [if_pos he] at h; cases h
  rw [if_neg he] at h
  have hdec : d = d / 2 ^ 31 * 2 ^ 31 + d / 2 ^ 23 % 256 * 2 ^ 23 + d % 2 ^ 23 := by omega
  have hm : d % 2 ^ 23 < 2 ^ 23 := Nat.mod_lt _ (by decide)
  have hs : d / 2 ^ 31 ≤ 1 := by omega
  have he2 : d / 2 ^ 23 % 256 < 256 := Nat.mod_lt _ (by decide)
  generalize d / 2 ^ 31 = s at *
  generalize d / 2 ^ 23 % 256 = e at *
  generalize d % 2 ^ 23 = m at *
  have small : ∀ {x k : Nat}, k ≤ 23 → (x : Nat) / 2 ^ k ≤ x := fun _ => Nat.div_le_self _ _
  by_cases h0 : e = 0
  · rw [if_pos h0] at h
    by_cases hn : s = 0
    · rw [if_pos hn, if_pos (by decide)] at h; cases h; rfl
    · rw [if_neg hn, if_pos (by decide)] at h
      simp only [Option.some.injEq] at h
      omega
  · rw [if_neg h0] at h
    by_cases h150 : e < 150
    · rw [if_pos h150] at h
      by_cases h127 : e < 127
      · have hz : (2 ^ 23 + m) / 2 ^ (150 - e) = 0 := by
          apply Nat.div_eq_of_lt
          calc 2 ^ 23 + m < 2 ^ 24 := by omega
            _ ≤ 2 ^ (150 - e) := Nat.pow_le_pow_right (by decide) (by omega)
        rw [hz] at h
        by_cases hn : s = 0
        · rw [if_pos hn, if_pos (by decide)] at h; cases h; omega
        · rw [if_neg hn, if_pos (by decide)] at h
          simp only [Option.some.injEq] at h
          omega
      · have hz : (2 ^ 23 + m) / 2 ^ (150 - e) ≤ 2 ^ 23 + m := Nat.div_le_self _ _
        generalize (2 ^ 23 + m) / 2 ^ (150 - e) = a at *
        by_cases hn : s = 0
        · rw [if_pos hn, if_pos (by omega)] at h; cases h; omega
        · rw [if_neg hn, if_pos (by omega)] at h
          simp only [Option.some.injEq] at h
          omega
    · rw [if_neg h150] at h
      by_cases h158 : e < 159
      · by_cases hn : s = 0
        · rw [if_pos hn] at h
          split at h
          · next ha =>
            have := no_positive (by omega) h158 hm ha
            simp only [Option.some.injEq] at h
            omega
          · cases h
        · rw [if_neg hn] at h
          split at h
          · next ha =>
            have h3 := no_negative (by omega) h158 hm ha
            have h4 : 0 < (2 ^ 23 + m) * 2 ^ (e - 150) := Nat.mul_pos (by omega) (Nat.pow_pos (by decide))
            simp only [Option.some.injEq] at h
            generalize (2 ^ 23 + m) * 2 ^ (e - 150) = a at *
            omega
          · cases h
      · have hb : 2 ^ 32 ≤ (2 ^ 23 + m) * 2 ^ (e - 150) := by
          calc 2 ^ 32 = 2 ^ 23 * 2 ^ 9 := by decide
            _ ≤ (2 ^ 23 + m) * 2 ^ (e - 150) := Nat.mul_le_mul (by omega) (Nat.pow_le_pow_right (by decide) (by omega))
        rw [if_neg (show ¬ (2 ^ 23 + m) * 2 ^ (e - 150) < 2 ^ 31 by omega)] at h
        rw [if_neg (show ¬ (2 ^ 23 + m) * 2 ^ (e - 150) ≤ 2 ^ 31 by omega)] at h
        split at h <;> cases h

end ELC.Fill
