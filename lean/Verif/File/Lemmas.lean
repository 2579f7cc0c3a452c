import Verif.File.Spec
import Mathlib.Data.List.Basic
/-! Lemmas on streams onto files. -/
namespace ELC.File
open Spec

theorem set_self {A : Type} (f : Nat → A) (i : Nat) (a : A) : set f i a i = a := if_pos rfl

theorem set_other {A : Type} (f : Nat → A) {i j : Nat} (a : A) (h : j ≠ i) : set f i a j = f j := if_neg h

/-- A number of bytes a system reads or writes in one call. -/
theorem cut_eq {sys : Sys} {n : Nat} (h : sys = .posix ∨ n < 2 ^ 32) : cut sys n = n := by
  cases sys with
  | posix => rfl
  | windows =>
    have : n < 2 ^ 32 := h.resolve_left (by simp)
    exact Nat.mod_eq_of_lt this

theorem basicRead_ok {sys : Sys} {os : Os} {h n k : Nat} {d : Desc} (ho : os.opened h = some d) (hc : cut sys n = n) :
    basicRead sys os h n (some k) =
      ((((os.files d.file).drop d.pos).take (min n k)).length, ((os.files d.file).drop d.pos).take (min n k),
        { os with opened := set os.opened h (some { d with pos := d.pos + (((os.files d.file).drop d.pos).take (min n k)).length }) }) := by
  unfold basicRead osRead
  rw [hc, ho]

theorem ahead_open {os : Os} {s : Stream} {d : Desc} (ho : os.opened s.handle = some d) :
    ahead os s = s.back ++ (os.files d.file).drop d.pos := by
  unfold ahead at?
  rw [ho]
  rfl

theorem drop_take_length (l : List Nat) (p n : Nat) : (l.drop p).take n ++ l.drop (p + ((l.drop p).take n).length) = l.drop p := by
  conv_rhs => rw [← List.take_append_drop n (l.drop p)]
  congr 1
  rw [List.drop_drop]
  rw [List.length_take, List.length_drop]
  rcases Nat.le_total n (l.length - p) with h | h
  · rw [Nat.min_eq_left h]
  · rw [Nat.min_eq_right h, List.drop_eq_nil_of_le (by omega), List.drop_eq_nil_of_le (by omega)]

theorem overwrite_get (f : List Nat) (p : Nat) (d : List Nat) (i : Nat) :
    (overwrite f p d)[i]? = if p ≤ i ∧ i < p + d.length then d[i - p]?
      else if i < f.length then f[i]? else if i < p then some 0 else none := by
  unfold overwrite
  have hl : (f.take p ++ List.replicate (p - f.length) 0).length = p := by
    rw [List.length_append, List.length_take, List.length_replicate]; omega
  rw [List.append_assoc, List.getElem?_append]
  by_cases h1 : i < p
  · rw [if_pos (by rw [hl]; exact h1), if_neg (by omega), List.getElem?_append]
    by_cases h2 : i < f.length
    · rw [if_pos (by rw [List.length_take]; omega), if_pos h2, List.getElem?_take_of_lt h1]
    · rw [if_neg (by rw [List.length_take]; omega), if_neg h2, if_pos h1, List.length_take]
      rw [List.getElem?_replicate, if_pos (by omega)]
  · rw [if_neg (by rw [hl]; exact h1), hl, List.getElem?_append]
    by_cases h2 : i < p + d.length
    · rw [if_pos (by omega), if_pos ⟨by omega, h2⟩]
    · rw [if_neg (by omega), if_neg (by omega), List.getElem?_drop, if_neg h1,
        show p + d.length + (i - p - d.length) = i by omega]
      split
      · rfl
      · rename_i h3
        exact List.getElem?_eq_none (by omega)

theorem osSeek_ok {sys : Sys} {os : Os} {h : Nat} {d : Desc} (ho : os.opened h = some d) {dir : Dir} {off : Int} {p : Nat}
    (hp : origin os d dir + adjust sys off = p) (hw : sys = .posix ∨ p < 2 ^ 32) :
    osSeek sys os h dir off = (some p, { os with opened := set os.opened h (some { d with pos := p }) }) := by
  unfold osSeek
  rw [ho]
  simp only [hp]
  rw [if_neg, Int.toNat_natCast]
  rintro (h | ⟨h, h'⟩)
  · omega
  · rcases hw with hw | hw
    · rw [hw] at h; cases h
    · omega

theorem osSeek_neg {sys : Sys} {os : Os} {h : Nat} {d : Desc} (ho : os.opened h = some d) {dir : Dir} {off : Int}
    (hp : origin os d dir + adjust sys off < 0) : osSeek sys os h dir off = (none, os) := by
  unfold osSeek
  rw [ho]
  simp only
  rw [if_pos (.inl hp)]

theorem tell_ok {sys : Sys} {os : Os} {s : Stream} {d : Desc} (ho : os.opened s.handle = some d) (hw : sys = .posix ∨ d.pos < 2 ^ 32) :
    tell sys os s = d.pos := by
  unfold tell
  rw [osSeek_ok ho (p := d.pos) (by cases sys <;> simp [origin, adjust, toLong]) hw]

end ELC.File
