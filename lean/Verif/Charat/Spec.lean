import Verif.Charat.Model

/-! What a character of a string is. -/
namespace ELC.Charat.Spec

/-- A node has a string. -/
def HasStr (h : Heap) (n : Nat) (s : List Nat) : Prop := h n = some (.str s)

/-- A payload that is the position `k`. -/
def IsIndex (p : Payload) (k : Nat) : Prop := (p = .int k ∧ k < 2 ^ 63) ∨ (p = .uint k ∧ k < 2 ^ 64)

/-- Assignments of characters to positions, the last one first: what the character at `k` is if it was `c` before all. -/
def last : List (Nat × Nat) → Nat → Nat → Nat
  | [], _, c => c
  | (j, d) :: r, k, c => if j = k then d else last r k c

/-- Assignments to one string as a history, given the last one first. -/
def history (n : Nat) (w : List (Nat × Nat)) : List Op := w.reverse.map fun a => .assign n (.uint a.1) (.char a.2)

end ELC.Charat.Spec
