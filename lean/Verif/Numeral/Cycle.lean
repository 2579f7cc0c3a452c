import Verif.Numeral.Frac
import Mathlib.Data.Finset.Card
import Mathlib.Data.Finset.Range
import Mathlib.Tactic.LinearCombination
namespace ELC.Numeral
open Spec ELC.Bigfloat ELC.Bigfloat.Spec

/-- Remainder after `i` rounds of long division. -/
def rem (r den n0 i : Nat) : Nat := n0 * r ^ i % den

theorem rem_succ (r den n0 i : Nat) : rem r den n0 (i + 1) = rem r den n0 i * r % den := by
  unfold rem
  rw [pow_succ, ← Nat.mul_assoc, Nat.mod_mul_mod]

theorem nodup_length_le {l : List Nat} {n : Nat} (h : l.Nodup) (hl : ∀ x ∈ l, x < n) : l.length ≤ n := by
  have h1 : l.toFinset.card = l.length := List.toFinset_card_of_nodup h
  have h2 : l.toFinset ⊆ Finset.range n := by
    intro x hx
    simp only [List.mem_toFinset] at hx
    simpa using hl x hx
  have := Finset.card_le_card h2
  simp only [Finset.card_range] at this
  omega

theorem fractionalLoop_spec {R : Rep} {den n0 : Nat} (hpos : 0 < R.radix) (hd : 0 < den) : ∀ (fuel k : Nat) (ds : List Nat),
    den + 2 ≤ fuel + k → ds.length = k → (∀ d ∈ ds, d < R.radix) →
    n0 * R.radix ^ k = den * positional R.radix ds + rem R.radix den n0 k →
    ((List.range k).map fun i => rem R.radix den n0 (i + 1)).Nodup →
    (∀ j < k, rem R.radix den n0 j ≠ 0) →
    ∃ es o, fractionalLoop R den fuel (rem R.radix den n0 k)
        ((List.range k).map fun i => rem R.radix den n0 (i + 1)) (ds.map R.getChar) = some (es.map R.getChar, o) ∧
      (∀ d ∈ es, d < R.radix) ∧
      n0 * R.radix ^ es.length = den * positional R.radix es + rem R.radix den n0 es.length ∧
      (∀ j < es.length, rem R.radix den n0 j ≠ 0) ∧
      ((List.range es.length).map fun i => rem R.radix den n0 (i + 1)).Nodup ∧
      ((o = none ∧ rem R.radix den n0 es.length = 0) ∨
        ∃ i, o = some i ∧ i < es.length ∧ rem R.radix den n0 es.length ≠ 0 ∧
          rem R.radix den n0 (es.length + 1) = rem R.radix den n0 (i + 1)) := by
  intro fuel
  induction fuel with
  | zero =>
    intro k ds hf _ _ _ hnd _
    exfalso
    have := nodup_length_le (n := den) hnd (by
      intro x hx
      obtain ⟨i, _, rfl⟩ := List.mem_map.1 hx
      exact Nat.mod_lt _ hd)
    simp at this; omega
  | succ fuel ih =>
    intro k ds hf hk hds hval hnd hnz
    rw [fractionalLoop]
    by_cases h0 : rem R.radix den n0 k = 0
    · rw [if_pos h0]
      refine ⟨ds, none, rfl, hds, by rw [hk]; exact hval, by rw [hk]; exact hnz, by rw [hk]; exact hnd,
        Or.inl ⟨rfl, by rw [hk]; exact h0⟩⟩
    · rw [if_neg h0]
      simp only [← rem_succ]
      cases hidx : ((List.range k).map fun i => rem R.radix den n0 (i + 1)).idxOf? (rem R.radix den n0 (k + 1)) with
      | some i =>
        rw [List.idxOf?_eq_some_iff] at hidx
        obtain ⟨hi, he, _⟩ := hidx
        simp at hi
        simp at he
        refine ⟨ds, some i, rfl, hds, by rw [hk]; exact hval, by rw [hk]; exact hnz, by rw [hk]; exact hnd,
          Or.inr ⟨i, rfl, by omega, by rw [hk]; exact h0, by rw [hk]; exact he.symm⟩⟩
      | none =>
        rw [List.idxOf?_eq_none_iff] at hidx
        have hlt : rem R.radix den n0 k < den := Nat.mod_lt _ hd
        have hq : rem R.radix den n0 k * R.radix / den < R.radix := by
          rw [Nat.div_lt_iff_lt_mul hd, Nat.mul_comm]
          exact Nat.mul_lt_mul_of_pos_left hlt hpos
        have := ih (k + 1) (ds ++ [rem R.radix den n0 k * R.radix / den]) (by omega) (by simp [hk]) (by
          intro d h
          rcases List.mem_append.1 h with h | h
          · exact hds d h
          · simp at h; omega) (by
          rw [positional_concat, pow_succ, ← Nat.mul_assoc, hval, rem_succ]
          have := Nat.div_add_mod (rem R.radix den n0 k * R.radix) den
          calc (den * positional R.radix ds + rem R.radix den n0 k) * R.radix
              = den * positional R.radix ds * R.radix + rem R.radix den n0 k * R.radix := by ring
            _ = den * positional R.radix ds * R.radix + (den * (rem R.radix den n0 k * R.radix / den) +
                rem R.radix den n0 k * R.radix % den) := by rw [this]
            _ = _ := by ring) (by
          rw [List.range_succ, List.map_append, List.nodup_append]
          refine ⟨hnd, by simp, ?_⟩
          intro a ha b hb
          simp only [List.map_cons, List.map_nil, List.mem_singleton] at hb
          subst hb
          intro e; subst e; exact hidx ha) (by
          intro j hj
          rcases Nat.lt_succ_iff_lt_or_eq.1 hj with h | h
          · exact hnz j h
          · subst h; exact h0)
        rw [List.range_succ, List.map_append, List.map_append] at this
        simpa using this

/-- Equal remainders stay equal. -/
theorem rem_shift {r den n0 i k : Nat} (h : rem r den n0 i = rem r den n0 k) (j : Nat) :
    rem r den n0 (i + j) = rem r den n0 (k + j) := by
  induction j with
  | zero => exact h
  | succ j ih => rw [← Nat.add_assoc, ← Nat.add_assoc, rem_succ, rem_succ, ih]

theorem rem_zero_stays {r den n0 i : Nat} (h : rem r den n0 i = 0) (j : Nat) : rem r den n0 (i + j) = 0 := by
  induction j with
  | zero => exact h
  | succ j ih => rw [← Nat.add_assoc, rem_succ, ih]; simp

theorem rem_period {r den n0 i p : Nat} (h : rem r den n0 (i + p) = rem r den n0 i) (t : Nat) :
    rem r den n0 (i + t * p) = rem r den n0 i := by
  induction t with
  | zero => simp
  | succ t ih =>
    have := rem_shift h (t * p)
    rw [show i + (t + 1) * p = i + p + t * p by ring, this, ih]

theorem rem_back {r den n0 i k : Nat} (hc : Nat.Coprime den r) (h : rem r den n0 (k + 1) = rem r den n0 (i + 1)) :
    rem r den n0 k = rem r den n0 i := by
  unfold rem at *
  rw [pow_succ, pow_succ, ← Nat.mul_assoc, ← Nat.mul_assoc] at h
  exact Nat.ModEq.cancel_right_of_coprime hc h

theorem prefix_value {r den n0 i : Nat} {es : List Nat} (hr : 2 ≤ r) (hd : 0 < den) (hi : i ≤ es.length)
    (hes : ∀ d ∈ es, d < r) (hk : n0 * r ^ es.length = den * positional r es + rem r den n0 es.length) :
    n0 * r ^ i = den * positional r (es.take i) + rem r den n0 i := by
  have hld : (es.drop i).length = es.length - i := by simp
  have hsplit : positional r es = positional r (es.take i) * r ^ (es.length - i) + positional r (es.drop i) := by
    conv_lhs => rw [← List.take_append_drop i es, positional_append, hld]
  have hB := positional_lt (r := r) (ds := es.drop i) (fun d h => hes d (List.mem_of_mem_drop h))
  rw [hld] at hB
  have hu : rem r den n0 es.length < den := Nat.mod_lt _ hd
  have hpow : r ^ es.length = r ^ i * r ^ (es.length - i) := by rw [← pow_add]; congr 1; omega
  rw [hpow, hsplit] at hk
  have hP : 0 < r ^ (es.length - i) := Nat.pow_pos (by omega)
  generalize r ^ (es.length - i) = P at *
  generalize positional r (es.take i) = A at *
  generalize positional r (es.drop i) = B at *
  generalize rem r den n0 es.length = u at *
  have hq : n0 * r ^ i / den = A := by
    apply Nat.div_eq_of_lt_le
    · apply Nat.le_of_mul_le_mul_right _ hP
      nlinarith
    · apply Nat.lt_of_mul_lt_mul_right (a := P)
      have : den * (B + 1) ≤ den * P := Nat.mul_le_mul_left _ hB
      nlinarith
  have := Nat.div_add_mod (n0 * r ^ i) den
  rw [hq] at this
  exact this.symm

/-- The digits and the block between the brackets denote the fraction exactly when the remainder before the block
equals the remainder after it. -/
theorem expansion_eq_iff {r den n0 i : Nat} {es : List Nat} (hr : 2 ≤ r) (hd : 0 < den) (hi : i < es.length)
    (hi' : n0 * r ^ i = den * positional r (es.take i) + rem r den n0 i)
    (hk : n0 * r ^ es.length = den * positional r es + rem r den n0 es.length) :
    expansion r 0 (es.take i) (es.drop i) = (n0 : ℚ) / den ↔ rem r den n0 es.length = rem r den n0 i := by
  set p := es.length - i with hp
  have hlt : (es.take i).length = i := by simp; omega
  have hld : (es.drop i).length = p := by simp; omega
  have hsplit : positional r es = positional r (es.take i) * r ^ p + positional r (es.drop i) := by
    conv_lhs => rw [← List.take_append_drop i es, positional_append, hld]
  have hrp : (1 : ℚ) < (r : ℚ) ^ p := by
    apply one_lt_pow₀
    · exact_mod_cast (by omega : 1 < r)
    · omega
  have hr0 : (r : ℚ) ^ i ≠ 0 := by
    apply pow_ne_zero; exact_mod_cast (by omega : r ≠ 0)
  have hd0 : (den : ℚ) ≠ 0 := by exact_mod_cast (by omega : den ≠ 0)
  have hm : ((r : ℚ) ^ p - 1) ≠ 0 := by
    intro h; linarith
  have e1 : (n0 : ℚ) * (r : ℚ) ^ i = den * positional r (es.take i) + rem r den n0 i := by exact_mod_cast hi'
  have e2 : (n0 : ℚ) * (r : ℚ) ^ es.length = den * positional r es + rem r den n0 es.length := by exact_mod_cast hk
  have e3 : (positional r es : ℚ) = positional r (es.take i) * (r : ℚ) ^ p + positional r (es.drop i) := by
    exact_mod_cast hsplit
  have e4 : (r : ℚ) ^ es.length = (r : ℚ) ^ i * (r : ℚ) ^ p := by
    rw [← pow_add]; congr 1; omega
  rw [e4, e3] at e2
  unfold expansion
  rw [hlt, hld]
  generalize (positional r (es.take i) : ℚ) = A at *
  generalize (positional r (es.drop i) : ℚ) = B at *
  generalize (r : ℚ) ^ p = P at *
  generalize (r : ℚ) ^ i = I at *
  rw [← Nat.cast_inj (R := ℚ)]
  generalize (rem r den n0 es.length : ℚ) = u at *
  generalize (rem r den n0 i : ℚ) = v at *
  have hB : (den : ℚ) * B = n0 * I * P - u - (n0 * I - v) * P := by linear_combination (-1 : ℚ) * e2 + P * e1
  have hA : (den : ℚ) * A = n0 * I - v := by linear_combination (-1 : ℚ) * e1
  have key : ((0 : ℕ) : ℚ) + A / I + B / (I * (P - 1)) - n0 / den = (v - u) / (den * (I * (P - 1))) := by
    field_simp
    push_cast
    linear_combination (P - 1) * hA + hB
  constructor
  · intro h
    rw [h, sub_self] at key
    have hden : (den : ℚ) * (I * (P - 1)) ≠ 0 := mul_ne_zero hd0 (mul_ne_zero hr0 hm)
    have := (div_eq_zero_iff.1 key.symm).resolve_right hden
    linarith
  · intro h
    rw [h, sub_self, zero_div] at key
    linarith

end ELC.Numeral
