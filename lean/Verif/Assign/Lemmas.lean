import Verif.Assign.Model
import Verif.Assign.Spec
namespace ELC.Assign
open Spec
variable {α : Type}

theorem copyOne_eq {k : Way} {mem : List α} {a b : Nat} (ha : a < mem.length) (hb : b < mem.length)
    (h : k = .renew → a ≠ b) : copyOne k mem a b = some (mem.set a mem[b]) := by
  unfold copyOne
  rw [List.getElem?_eq_getElem hb]
  dsimp only
  rw [if_pos ha]
  cases k with
  | bytes => rfl
  | own => rfl
  | renew => exact if_neg (h rfl)

/-- The whole loop, when every element read is one not yet written. -/
theorem copyLoop_back {k : Way} {dst src : Nat} {m0 : List α} {N : Nat} (hd : dst + N ≤ m0.length)
    (hs : src + N ≤ m0.length) (hk : k = .renew → dst ≠ src) (ho : src ≤ dst ∨ dst + N ≤ src) :
    ∀ (n : Nat) (m : List α), n ≤ N → m.length = m0.length →
      (∀ j, j < dst + n ∨ dst + N ≤ j → m[j]? = m0[j]?) →
      (∀ i, n ≤ i → i < N → m[dst + i]? = m0[src + i]?) →
      ∃ m', copyLoop k m dst src n = some m' ∧ Copied m0 m' dst src N := by
  intro n
  induction n with
  | zero =>
    intro m _ hl h1 h2
    exact ⟨m, rfl, hl, fun i hi => h2 i (Nat.zero_le _) hi, fun j hj => h1 j (by omega)⟩
  | succ n ih =>
    intro m hn hl h1 h2
    rw [copyLoop, copyOne_eq (by omega) (by omega) (fun h => by have := hk h; omega)]
    dsimp only
    apply ih _ (by omega) (by simpa using hl)
    · intro j hj
      rw [List.getElem?_set_ne (by omega)]
      exact h1 j (by omega)
    · intro i hi hiN
      by_cases he : i = n
      · subst he
        rw [List.getElem?_set_self (by omega), ← List.getElem?_eq_getElem]
        exact h1 _ (by omega)
      · rw [List.getElem?_set_ne (by omega)]
        exact h2 i (by omega) hiN

/-- The element the loop ends with at place `i`, when the source begins `d` elements behind the destination. -/
theorem last_step {N n d : Nat} (hd : 0 < d) (h : n + d < N) :
    n + d + (N - 1 - (n + d)) / d * d = n + (N - 1 - n) / d * d := by
  have e : N - 1 - n = (N - 1 - (n + d)) + d := by omega
  rw [e, Nat.add_div_right _ hd, Nat.succ_mul]
  omega

/-- The whole loop, when the source begins `d > 0` elements behind the destination. -/
theorem copyLoop_ahead {k : Way} {dst d : Nat} {m0 : List α} {N : Nat} (hd0 : 0 < d)
    (hs : dst + d + N ≤ m0.length) :
    ∀ (n : Nat) (m : List α), n ≤ N → m.length = m0.length →
      (∀ j, j < dst + n ∨ dst + N ≤ j → m[j]? = m0[j]?) →
      (∀ i, n ≤ i → i < N → m[dst + i]? = m0[dst + d + (i + (N - 1 - i) / d * d)]?) →
      ∃ m', copyLoop k m dst (dst + d) n = some m' ∧ m'.length = m0.length ∧
        (∀ i < N, m'[dst + i]? = m0[dst + d + (i + (N - 1 - i) / d * d)]?) ∧
        ∀ j, j < dst ∨ dst + N ≤ j → m'[j]? = m0[j]? := by
  intro n
  induction n with
  | zero =>
    intro m _ hl h1 h2
    exact ⟨m, rfl, hl, fun i hi => h2 i (Nat.zero_le _) hi, fun j hj => h1 j (by omega)⟩
  | succ n ih =>
    intro m hn hl h1 h2
    rw [copyLoop, copyOne_eq (by omega) (by omega) (fun _ => by omega)]
    dsimp only
    apply ih _ (by omega) (by simpa using hl)
    · intro j hj
      rw [List.getElem?_set_ne (by omega)]
      exact h1 j (by omega)
    · intro i hi hiN
      by_cases he : i = n
      · subst he
        rw [List.getElem?_set_self (by omega), ← List.getElem?_eq_getElem]
        by_cases hin : i + d < N
        · have := h2 (i + d) (by omega) hin
          rw [last_step hd0 hin] at this
          rw [← this]; congr 1; omega
        · rw [Nat.div_eq_of_lt (by omega), h1 _ (by omega)]
          congr 1; omega
      · rw [List.getElem?_set_ne (by omega)]
        exact h2 i (by omega) hiN

theorem memmove_copied {mem : List α} {dst src n : Nat} (hd : dst + n ≤ mem.length) (hs : src + n ≤ mem.length) :
    ∃ m', memmove mem dst src n = some m' ∧ Copied mem m' dst src n := by
  refine ⟨_, if_pos ⟨hd, hs⟩, ?_, ?_, ?_⟩
  · simp; omega
  · intro i hi
    rw [List.append_assoc, List.getElem?_append_right (by simp; omega), List.getElem?_append_left (by simp; omega),
      List.getElem?_take_of_lt (by simp; omega), List.getElem?_drop]
    congr 1; simp; omega
  · intro j hj
    rcases hj with hj | hj
    · rw [List.append_assoc, List.getElem?_append_left (by simp; omega), List.getElem?_take_of_lt hj]
    · rw [List.getElem?_append_right (by simp; omega), List.getElem?_drop]
      congr 1; simp; omega

theorem fill_step {k : Way} {dst : Nat} {s : Source α} {v : α} {m0 : List α} {N : Nat} (hd : dst + N ≤ m0.length)
    (hv : match s with | .at b => m0[b]? = some v ∧ (k = .renew → b < dst ∨ dst + N ≤ b) | .value w => w = v) :
    ∀ (n : Nat) (m : List α), n ≤ N → m.length = m0.length →
      (∀ j, j < dst + n ∨ dst + N ≤ j → m[j]? = m0[j]?) →
      (∀ i, n ≤ i → i < N → m[dst + i]? = some v) →
      ∃ m', fill k m dst s n = some m' ∧ Filled m0 m' dst N v := by
  intro n
  induction n with
  | zero =>
    intro m _ hl h1 h2
    exact ⟨m, rfl, hl, fun i hi => h2 i (Nat.zero_le _) hi, fun j hj => h1 j (by omega)⟩
  | succ n ih =>
    intro m hn hl h1 h2
    have hone : fillOne k m (dst + n) s = some (m.set (dst + n) v) := by
      cases s with
      | value w =>
        dsimp only at hv
        subst hv
        exact if_pos (by omega)
      | «at» b =>
        dsimp only at hv
        have hb0 : b < m0.length := by
          rcases Nat.lt_or_ge b m0.length with h | h
          · exact h
          · rw [List.getElem?_eq_none h] at hv; exact nomatch hv.1
        have hmb : m[b]? = some v := by
          by_cases hin : b < dst + (n + 1) ∨ dst + N ≤ b
          · rw [h1 b hin]; exact hv.1
          · have := h2 (b - dst) (by omega) (by omega)
            rw [show dst + (b - dst) = b by omega] at this
            exact this
        have hbl : b < m.length := by omega
        rw [fillOne, copyOne_eq (by omega) hbl (fun h => by have := hv.2 h; omega)]
        rw [List.getElem?_eq_getElem hbl] at hmb
        injection hmb with hmb
        rw [hmb]
    rw [fill, hone]
    dsimp only
    apply ih _ (by omega) (by simpa using hl)
    · intro j hj
      rw [List.getElem?_set_ne (by omega)]
      exact h1 j (by omega)
    · intro i hi hiN
      by_cases he : i = n
      · subst he; rw [List.getElem?_set_self (by omega)]
      · rw [List.getElem?_set_ne (by omega)]
        exact h2 i (by omega) hiN

end ELC.Assign
