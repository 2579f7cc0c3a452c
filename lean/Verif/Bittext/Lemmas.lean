import Verif.Bittext.Model
import Verif.Bits.Props
import Verif.Numeral.Props
/-! Helper lemmas. -/
namespace ELC.Bittext
open ELC.Bits ELC.Numeral ELC.Numeral.Spec

theorem bigOf_testBit (d : Bytes) (i : Nat) : (bigOf d).testBit i = (bsGet d i).getD false := by
  induction d generalizing i with
  | nil => simp [bigOf, bsGet]
  | cons b d ih =>
    rw [bigOf, testBit_horner, bsGet_eq]
    by_cases h8 : i < 8
    · simp [h8, show i / 8 = 0 by omega, show i % 8 = i by omega]
    · simp only [h8, if_false]
      rw [ih, show i / 8 = (i - 8) / 8 + 1 by omega, List.getElem?_cons_succ,
        ← show (i - 8) % 8 = i % 8 by omega, ← bsGet_eq]

theorem bsOfNat_bigOf (d : Bytes) : bsOfNat d.length (bigOf d) = d := by
  induction d with
  | nil => rfl
  | cons b d ih =>
    have hb : b.toNat < 256 := b.isLt
    rw [List.length_cons, bsOfNat, bigOf, show (bigOf d * 256 + b.toNat) / 256 = bigOf d by omega, ih,
      show (bigOf d * 256 + b.toNat) % 256 = b.toNat by omega]
    simp

/-- A padded text of digits is a text of the same number. -/
theorem padLeft_digits (R : Rep) (N : Nat) (ds : List Nat) :
    padLeft N (R.getChar 0) (ds.map R.getChar) = (List.replicate (N - ds.length) 0 ++ ds).map R.getChar := by
  unfold padLeft
  rw [List.length_map]
  by_cases h : N ≤ ds.length
  · rw [if_pos h, show N - ds.length = 0 by omega]; rfl
  · rw [if_neg h, List.map_append, List.map_replicate]

theorem positional_bit (es : List Nat) (he : ∀ e ∈ es, e < 2) (i : Nat) (hi : i < es.length) :
    es[es.length - 1 - i]? = some (((positional 2 es).testBit i).toNat) := by
  induction es using List.reverseRecOn generalizing i with
  | nil => simp at hi
  | append_singleton a d ih =>
    have hd : d < 2 := he d (by simp)
    rw [positional_concat]
    rw [List.length_append, List.length_singleton] at hi ⊢
    cases i with
    | zero =>
      rw [show a.length + 1 - 1 - 0 = a.length by omega, List.getElem?_append_right (Nat.le_refl _)]
      rw [Nat.testBit_zero]
      have : (positional 2 a * 2 + d) % 2 = d := by omega
      rw [this]
      have : d = 0 ∨ d = 1 := by omega
      rcases this with rfl | rfl <;> simp
    | succ i =>
      rw [show a.length + 1 - 1 - (i + 1) = a.length - 1 - i by omega, List.getElem?_append_left (by omega),
        Nat.testBit_succ, show (positional 2 a * 2 + d) / 2 = positional 2 a by omega]
      exact ih (fun e h => he e (by simp [h])) i (by omega)

theorem text_digits {R : Rep} (hR : Good R) (hr : R.radix < 2 ^ 64) {w : Nat} (hw : 0 < w) (N : Nat) (d : Bytes) :
    ∃ ds, bitsetText R w N d = some ((List.replicate (N - ds.length) 0 ++ ds).map R.getChar) ∧
      (∀ x ∈ ds, x < R.radix) ∧ positional R.radix ds = bigOf d ∧ ds ≠ [] ∧ (ds = [0] ∨ ds.head? ≠ some 0) := by
  obtain ⟨s, h1, ⟨ds, rfl, h2, h3, h4, h5⟩, _⟩ := big_to_string_correct hR hr w hw (bigOf d)
  exact ⟨ds, by rw [bitsetText, h1, Option.map_some, padLeft_digits], h2, h3, h4, h5⟩

theorem pad_lt {r : Nat} (hr : 2 ≤ r) {k : Nat} {ds : List Nat} (h : ∀ x ∈ ds, x < r) :
    ∀ x ∈ List.replicate k 0 ++ ds, x < r := by
  intro x hx
  rcases List.mem_append.1 hx with hx | hx
  · rw [List.eq_of_mem_replicate hx]; omega
  · exact h x hx

end ELC.Bittext
