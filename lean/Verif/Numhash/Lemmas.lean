import Verif.Numhash.Model
import Verif.Hash.Props
import Verif.Ubig.Spec
import Mathlib.Tactic.Ring
import Mathlib.Tactic.Linarith

namespace ELC.Numhash

open ELC.Hash (Word)
open ELC.Ubig (Digits)
open ELC.Ubig.Spec (val)

theorem hash_zeros (n i : Nat) : Hash.Spec.arrayHashFrom (fun d : Nat => hashInt d) i (List.replicate n 0) = 0#64 := by
  induction n generalizing i with
  | zero => rfl
  | succ n ih =>
    rw [List.replicate_succ, Hash.Spec.arrayHashFrom, ih]
    simp [hashInt, Hash.rot_zero_word]

/-- Zeros in front do not matter. -/
theorem hash_pad (a : Digits) (n : Nat) : hashUbig (a ++ List.replicate n 0) = hashUbig a := by
  unfold hashUbig
  rw [Hash.hashArray_closed_form, Hash.hashArray_closed_form, Hash.Spec.arrayHash, Hash.Spec.arrayHash, Hash.arrayHashFrom_append,
    hash_zeros, BitVec.xor_zero]

theorem val_pad (w : Nat) (a : Digits) (n : Nat) : val w (a ++ List.replicate n 0) = val w a := by
  induction a with
  | nil =>
    induction n with
    | zero => rfl
    | succ n ih => simpa [val, List.replicate_succ] using ih
  | cons x a ih => simp only [List.cons_append, val, ih]

theorem digits_pad {w : Nat} {a : Digits} (h : Ubig.Spec.Digits w a) (n : Nat) :
    Ubig.Spec.Digits w (a ++ List.replicate n 0) := by
  intro d hd
  rcases List.mem_append.mp hd with hd | hd
  · exact h d hd
  · rw [List.eq_of_mem_replicate hd]; exact Nat.two_pow_pos w

/-- Arrays of one length that mean the same are the same. -/
theorem val_inj {w : Nat} : ∀ {a b : Digits}, Ubig.Spec.Digits w a → Ubig.Spec.Digits w b → a.length = b.length → val w a = val w b →
    a = b
  | [], [], _, _, _, _ => rfl
  | [], _ :: _, _, _, h, _ => by cases h
  | _ :: _, [], _, _, h, _ => by cases h
  | x :: a, y :: b, ha, hb, h, hv => by
    have hx := ha x (List.mem_cons_self ..)
    have hy := hb y (List.mem_cons_self ..)
    simp only [val] at hv
    have e1 : x = y := by
      have := congrArg (· % 2 ^ w) hv
      simpa [Nat.add_mul_mod_self_left, Nat.mod_eq_of_lt hx, Nat.mod_eq_of_lt hy] using this
    subst e1
    have e2 : val w a = val w b := Nat.eq_of_mul_eq_mul_left (Nat.two_pow_pos w) (by omega)
    rw [val_inj (fun d hd => ha d (List.mem_cons_of_mem _ hd)) (fun d hd => hb d (List.mem_cons_of_mem _ hd))
      (by simpa using h) e2]

theorem ubig_hash {w : Nat} {a b : Digits} (ha : Ubig.Spec.Digits w a) (hb : Ubig.Spec.Digits w b) (h : val w a = val w b) :
    hashUbig a = hashUbig b := by
  rw [← hash_pad a b.length, ← hash_pad b a.length]
  congr 1
  apply val_inj (digits_pad ha _) (digits_pad hb _)
  · simp [Nat.add_comm]
  · rw [val_pad, val_pad, h]

theorem hash_zero {w : Nat} {a : Digits} (ha : Ubig.Spec.Digits w a) (h : val w a = 0) : hashUbig a = 0#64 := by
  rw [ubig_hash ha (b := []) (fun d hd => by cases hd) (by simpa [val] using h)]
  rfl

theorem digit_bits {w x : Nat} (hw : w ≤ 63) (hx : x < 2 ^ w) : x < 2 ^ 63 :=
  lt_of_lt_of_le hx (Nat.pow_le_pow_right (by norm_num) hw)

theorem hash_one {x : Nat} (hx : x < 2 ^ 63) : hashUbig [x] = BitVec.ofNat 64 (2 * x) := by
  unfold hashUbig
  rw [Hash.hashArray_closed_form, Hash.Spec.arrayHash, Hash.Spec.arrayHashFrom, Hash.Spec.arrayHashFrom, BitVec.xor_zero]
  unfold hashInt
  rw [BitVec.ofInt_natCast, BitVec.rotateLeft_def]
  apply BitVec.eq_of_toNat_eq
  have h1 : 2 * x < 2 ^ 64 := by omega
  have h2 : x < 2 ^ 64 := by omega
  simp only [BitVec.toNat_or, BitVec.toNat_shiftLeft, BitVec.toNat_ushiftRight, BitVec.toNat_ofNat, Nat.mod_eq_of_lt h2,
    Nat.mod_eq_of_lt h1]
  have h3 : x <<< ((0 + 1) % 64) = 2 * x := by
    rw [show (0 + 1) % 64 = 1 by rfl, Nat.shiftLeft_eq]; omega
  have h4 : x >>> (64 - (0 + 1) % 64) = 0 := by
    rw [show 64 - (0 + 1) % 64 = 63 by rfl, Nat.shiftRight_eq_div_pow]
    exact Nat.div_eq_of_lt hx
  rw [h3, h4, Nat.or_zero, Nat.mod_eq_of_lt h1]

end ELC.Numhash
