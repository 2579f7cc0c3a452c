import Verif.Assign.Lemmas
/-! Assigning elements of arrays: C205 and C206. -/
namespace ELC.Assign
open Spec
variable {α : Type}

/-! ### C205: a range of elements is copied onto another range -/

/-- **C205, ranges apart.** For elements of every type, ranges that share no element are copied. -/
theorem copy_apart (k : Way) {mem : List α} {dst src n : Nat} (hd : dst + n ≤ mem.length) (hs : src + n ≤ mem.length)
    (h : Apart dst src n) : ∃ m', copyAssign k mem dst src n = some m' ∧ Copied mem m' dst src n := by
  unfold Apart at h
  rcases Nat.eq_zero_or_pos n with h0 | hpos
  · subst h0
    have hc : Copied mem mem dst src 0 := ⟨rfl, fun i hi => absurd hi (Nat.not_lt_zero i), fun _ _ => rfl⟩
    cases k with
    | bytes =>
      obtain ⟨m', h1, h2⟩ := memmove_copied hd hs
      exact ⟨m', by rw [copyAssign, memcpy, if_neg (by omega)]; exact h1, h2⟩
    | own => exact ⟨mem, rfl, hc⟩
    | renew => exact ⟨mem, rfl, hc⟩
  · cases k with
    | bytes =>
      obtain ⟨m', h1, h2⟩ := memmove_copied hd hs
      exact ⟨m', by rw [copyAssign, memcpy, if_neg (by omega)]; exact h1, h2⟩
    | own =>
      exact copyLoop_back (k := .own) hd hs nofun (by omega) n mem (Nat.le_refl _) rfl (fun _ _ => rfl) (fun i h1 h2 => by omega)
    | renew =>
      exact copyLoop_back (k := .renew) hd hs (fun _ => by omega) (by omega) n mem (Nat.le_refl _) rfl (fun _ _ => rfl)
        (fun i h1 h2 => by omega)

example : copyAssign .own [1, 2, 3, 4] 2 0 2 = some [1, 2, 1, 2] ∧ copyAssign .bytes [1, 2, 3, 4] 0 2 2 = some [3, 4, 3, 4] := by
  decide

/-- **C205, part: overlapping ranges.** With elements that are not copied as bytes, a range is copied right onto one that
begins behind it, and onto itself with the type's own assignment.  Missing: destinations that begin in front of the source,
and bytes. -/
theorem copy_upwards_partial {k : Way} (hk : k = .own ∨ k = .renew) {mem : List α} {dst src n : Nat}
    (hd : dst + n ≤ mem.length) (h : src < dst ∨ src = dst ∧ k = .own) :
    ∃ m', copyAssign k mem dst src n = some m' ∧ Copied mem m' dst src n := by
  have key : ∃ m', copyLoop k mem dst src n = some m' ∧ Copied mem m' dst src n := by
    refine copyLoop_back hd (by omega) (fun e => ?_) (by omega) n mem (Nat.le_refl _) rfl (fun _ _ => rfl)
      (fun i h1 h2 => by omega)
    rcases h with h | ⟨_, h⟩
    · omega
    · rw [e] at h; exact nomatch h
  rcases hk with rfl | rfl <;> exact key

example : copyAssign .own [1, 2, 3, 4, 5] 1 0 4 = some [1, 1, 2, 3, 4] := by decide

/-- **C205, exactly what happens otherwise.** A range of elements that are not copied as bytes, copied onto one that begins
`d > 0` elements in front of it: the last `d` elements of the source are repeated from the end on.  Element `i` of the
destination becomes the element of the source at the last of the places `i`, `i+d`, `i+2d` and so on. -/
theorem copy_downwards_characterised {k : Way} (hk : k = .own ∨ k = .renew) {mem : List α} {dst d n : Nat} (hd : 0 < d)
    (hs : dst + d + n ≤ mem.length) :
    ∃ m', copyAssign k mem dst (dst + d) n = some m' ∧ m'.length = mem.length ∧
      (∀ i < n, m'[dst + i]? = mem[dst + d + (i + (n - 1 - i) / d * d)]?) ∧
      ∀ j, j < dst ∨ dst + n ≤ j → m'[j]? = mem[j]? := by
  have key := copyLoop_ahead (k := k) hd hs n mem (Nat.le_refl _) rfl (fun _ _ => rfl) (fun i h1 h2 => by omega)
  rcases hk with rfl | rfl <;> exact key

/-- Deleting the first of five elements by copying the others down makes all of them the last one. -/
example : copyAssign .own [1, 2, 3, 4, 5] 0 1 4 = some [5, 5, 5, 5, 5] := by decide

/-- **C205 is false of overlapping ranges.** For bytes every overlap is undefined; for other elements a copy onto a range that
begins one in front is right only if all elements of the source are equal; and an element that is destructed and made anew
cannot be copied onto itself. -/
theorem copy_overlap_refuted {mem : List α} {dst src n : Nat} :
    (¬ Apart dst src n → copyAssign .bytes mem dst src n = none) ∧
    (0 < n → copyAssign .renew mem dst dst n = none) ∧
    (src = dst + 1 → src + n ≤ mem.length →
      ∀ m', copyAssign .own mem dst src n = some m' → Copied mem m' dst src n →
        ∀ i < n, mem[src + i]? = mem[src + (n - 1)]?) := by
  refine ⟨?_, ?_, ?_⟩
  · intro h
    unfold Apart at h
    exact if_pos (by omega)
  · intro hn
    cases n with
    | zero => omega
    | succ n =>
      show copyLoop .renew mem dst dst (n + 1) = none
      have h : copyOne .renew mem (dst + n) (dst + n) = none := by
        unfold copyOne
        cases mem[dst + n]? with
        | none => rfl
        | some v =>
          dsimp only
          split
          · exact if_pos rfl
          · rfl
      rw [copyLoop, h]
  · intro he hs m' h hc i hi
    subst he
    obtain ⟨m'', h1, _, h3, _⟩ := copy_downwards_characterised (k := .own) (Or.inl rfl) (d := 1) (by omega) hs
    rw [h] at h1
    injection h1 with h1
    subst h1
    rw [← hc.2.1 i hi, h3 i hi, Nat.div_one, Nat.mul_one]
    congr 1; omega

example : ¬ Apart 1 0 4 := by unfold Apart; omega

/-- **C205, `move_assign.may_overlap`.** Where it compiles, ranges that overlap in any way are moved right; it compiles for
types of bytes only.  `move_assign` itself compiles for the same types, and is right exactly if the ranges are apart. -/
theorem move_ranges {mem : List α} {dst src n : Nat} (hd : dst + n ≤ mem.length) (hs : src + n ≤ mem.length) :
    (∃ m', mayOverlap true mem dst src n = some (some m') ∧ Copied mem m' dst src n) ∧
    mayOverlap false mem dst src n = none ∧ moveAssign false mem dst src n = none ∧
    (0 < n → ((∃ m', moveAssign true mem dst src n = some (some m') ∧ Copied mem m' dst src n) ↔ Apart dst src n)) := by
  refine ⟨?_, rfl, rfl, fun hn => ⟨?_, ?_⟩⟩
  · obtain ⟨m', h1, h2⟩ := memmove_copied hd hs
    exact ⟨m', by rw [mayOverlap, if_pos rfl, h1], h2⟩
  · rintro ⟨m', h1, _⟩
    rw [moveAssign, if_pos rfl] at h1
    injection h1 with h1
    unfold memcpy at h1
    split at h1
    · exact nomatch h1
    · unfold Apart; omega
  · intro h
    obtain ⟨m', h1, h2⟩ := copy_apart .bytes hd hs h
    exact ⟨m', by rw [moveAssign, if_pos rfl]; exact congrArg some h1, h2⟩

example : mayOverlap true [1, 2, 3, 4, 5] 0 1 4 = some (some [2, 3, 4, 5, 5]) := by decide

/-- **C205, one value for all.** `n` elements are assigned one value, even if that value is one of them; unless elements are
destructed and made anew, when it must be none of them. -/
theorem fill_correct (k : Way) {mem : List α} {dst n : Nat} (hd : dst + n ≤ mem.length) :
    (∀ v, ∃ m', fill k mem dst (.value v) n = some m' ∧ Filled mem m' dst n v) ∧
    (∀ b v, mem[b]? = some v → (k = .renew → b < dst ∨ dst + n ≤ b) →
      ∃ m', fill k mem dst (.at b) n = some m' ∧ Filled mem m' dst n v) := by
  constructor
  · intro v
    exact fill_step (s := .value v) hd rfl n mem (Nat.le_refl _) rfl (fun _ _ => rfl) (fun i h1 h2 => by omega)
  · intro b v h1 h2
    exact fill_step (s := .at b) hd ⟨h1, h2⟩ n mem (Nat.le_refl _) rfl (fun _ _ => rfl) (fun i h1 h2 => by omega)

example : fill .own [1, 2, 3, 4] 0 (.at 2) 4 = some [3, 3, 3, 3] := by decide

/-- An element that is one of those assigned, of a type that is destructed and made anew, is read after its end. -/
theorem fill_renew_refuted {mem : List α} {dst n b : Nat} (hd : dst + n ≤ mem.length) (hb : dst ≤ b) (hb' : b < dst + n) :
    fill .renew mem dst (.at b) n = none := by
  induction n generalizing mem with
  | zero => omega
  | succ n ih =>
    rw [fill]
    by_cases he : b = dst + n
    · have : fillOne .renew mem (dst + n) (.at b) = none := by
        rw [fillOne, copyOne, List.getElem?_eq_getElem (by omega)]
        dsimp only
        rw [if_pos (by omega), if_pos he.symm]
      rw [this]
    · rw [fillOne, copyOne_eq (by omega) (by omega) (fun _ => by omega)]
      dsimp only
      exact ih (by simp; omega) (by omega)

example : fill .renew [1, 2, 3, 4] 0 (.at 2) 4 = none :=
  fill_renew_refuted (by decide) (by decide) (by decide)

/-! ### C206: which assignment is used -/

/-- **C206 (part).** Arrays of a type are assigned with the type's own assignment exactly if it has one that is not trivial
and its copy constructor or its destructor is not trivial either; elements are destructed and made anew exactly if
there is no assignment but a copy constructor and a destructor that are not both trivial. -/
theorem way_characterised (t : Traits) :
    (way t = some .own ↔ t.assignAble = true ∧ t.assignTrivial = false ∧ ¬ (t.copyTrivial = true ∧ t.endTrivial = true)) ∧
    (way t = some .renew ↔ t.assignAble = false ∧ t.copyAble = true ∧ t.endAble = true ∧
      ¬ (t.copyTrivial = true ∧ t.endTrivial = true)) ∧
    (way t = none ↔ ¬ (t.assignAble = true ∧ (t.assignTrivial = true ∨ ¬ (t.copyTrivial = true ∧ t.endTrivial = true))) ∧
      ¬ (t.copyAble = true ∧ t.endAble = true)) := by
  obtain ⟨a, b, c, d, e, f⟩ := t
  revert a b c d e f
  decide

/-- **C206 is false of the code.** The own assignment of a type with a trivial copy constructor and a trivial destructor is not
used: its bytes are copied, whatever its assignment does. -/
theorem own_assignment_refuted (t : Traits) (h1 : t.assignTrivial = false) (h2 : t.copyAble = true)
    (h3 : t.copyTrivial = true) (h4 : t.endAble = true) (h5 : t.endTrivial = true) : way t = some .bytes := by
  obtain ⟨a, b, c, d, e, f⟩ := t
  dsimp only at h1 h2 h3 h4 h5
  subst h1 h2 h3 h4 h5
  revert a
  decide

/-- A reference wrapper whose assignment writes through the reference. -/
example : way ⟨true, false, true, true, true, true⟩ = some .bytes := by decide

end ELC.Assign
