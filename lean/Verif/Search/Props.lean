import Verif.Search.Lemmas
import Mathlib.Tactic.IntervalCases
import Mathlib.Data.List.Nodup
/-! Properties of the searches.  Results: outer `none` = a read outside the memory given or no `return`;
`some none` = `nullptr`. -/
namespace ELC.Search
open Spec
variable {α : Type} [DecidableEq α]

/-! ### C29: the forward pattern search -/

theorem exists_first {p r : List α} {k : Nat} (h : OccursAt p r k) : ∃ k', FirstAt p r k' := by
  classical
  have hex : ∃ k, OccursAt p r k := ⟨k, h⟩
  exact ⟨Nat.find hex, Nat.find_spec hex, fun j hj => Nat.find_min hex hj⟩

/-- **C29 (part).** When the pattern occurs in the range, its first occurrence is returned, and no read leaves the range.
`idx` is the hash of an element reduced to an index of the skip table: any function. -/
theorem match_finds_first (idx : α → Nat) {p r : List α} (hp : p ≠ []) {k : Nat} (hk : FirstAt p r k) :
    matchPattern idx p r r.length = some (some k) := by
  apply matchLoop_finds idx hp (Nat.le_refl _) _ 0 (Nat.zero_le _)
  simpa using hk

example : matchPattern (fun c : Nat => c % 2) [1, 2, 1] [1, 3, 1, 2, 1, 2, 1] 7 = some (some 2) :=
  match_finds_first _ (by simp) ⟨⟨[1, 3], [2, 1], rfl, rfl⟩, by
    intro j hj
    rw [occurs_iff (by simp)]
    intro h
    have h0 := h 0 (by simp); have h1 := h 1 (by simp)
    interval_cases j <;> simp at h0 h1⟩

/-- **C29 (part).** The answers, whatever lies behind the range: a returned position that fits into the range is the first
occurrence, and `nullptr` is returned only when the pattern does not occur. -/
theorem match_partial (idx : α → Nat) {p mem : List α} (hp : p ≠ []) {n : Nat} (hn : n ≤ mem.length) :
    (∀ k, FirstAt p (mem.take n) k → matchPattern idx p mem n = some (some k)) ∧
    (∀ k, matchPattern idx p mem n = some (some k) →
      OccursAt p mem k ∧ (k + p.length ≤ n → FirstAt p (mem.take n) k)) ∧
    (matchPattern idx p mem n = some none → ∀ k, ¬ OccursAt p (mem.take n) k) := by
  have key : ∀ k, FirstAt p (mem.take n) k → matchPattern idx p mem n = some (some k) :=
    fun k hk => matchLoop_finds idx hp hn hk 0 (Nat.zero_le _)
  refine ⟨key, ?_, ?_⟩
  · intro k h
    have hs := matchLoop_sound idx hp 0 h
    refine ⟨hs, fun hle => ?_⟩
    have : OccursAt p (mem.take n) k := (occurs_take hp hle).2 hs
    obtain ⟨k', hk'⟩ := exists_first this
    have := key k' hk'
    rw [h] at this
    injection this with this; injection this with this
    subst this; exact hk'
  · intro h k hk
    obtain ⟨k', hk'⟩ := exists_first hk
    have := key k' hk'
    rw [h] at this
    cases this

example : (2 : Nat) ≤ [5, 6, 7].length := by decide

/-- **C29 (part).** The property holds in full when the range is followed by as many readable elements as the pattern has,
the first of which does not occur in the pattern. -/
theorem match_padded (idx : α → Nat) {p r pad : List α} (hp : p ≠ []) {z : α} (hz : pad.head? = some z) (hzp : z ∉ p)
    (hpad : p.length ≤ pad.length) :
    ∃ o, matchPattern idx p (r ++ pad) r.length = some o ∧ IsFirstOccurrence p r o := by
  have htake : (r ++ pad).take r.length = r := by simp
  by_cases h : ∃ k, OccursAt p r k
  · obtain ⟨k, hk⟩ := h
    obtain ⟨k', hk'⟩ := exists_first hk
    exact ⟨some k', matchLoop_finds idx hp (by simp) (by rw [htake]; exact hk') 0 (Nat.zero_le _), hk'⟩
  · have h' : ∀ k, ¬ OccursAt p r k := fun k hk => h ⟨k, hk⟩
    refine ⟨none, ?_, h'⟩
    apply matchLoop_padded idx hp (z := z) (by simp; omega) _ hzp (by rw [htake]; exact h') 0 (Nat.zero_le _)
    cases pad with
    | nil => simp at hz
    | cons y ys => simpa using hz

example : ∃ o, matchPattern (fun c : Nat => c % 256) [98, 97] ([97, 98] ++ [0, 0]) 2 = some o ∧ IsFirstOccurrence [98, 97] [97, 98] o :=
  match_padded (r := [97, 98]) (pad := [0, 0]) _ (by simp) (z := 0) rfl (by simp) (by simp)

/-- **C29 is false of the code.** Looking for "a" in "bc": the skip goes behind the end of the range, and the comparison is
made before the test of the length, so memory behind the range is read; when it holds the pattern, it is "found" there.
The same happens when the range is shorter than the pattern. -/
theorem match_refuted :
    (∀ k, ¬ OccursAt [97] [98, 99] k) ∧
    matchPattern (fun c : Nat => c % 256) [97] [98, 99] 2 = none ∧
    matchPattern (fun c : Nat => c % 256) [97] [98, 99, 97] 2 = some (some 2) ∧
    matchPattern (fun c : Nat => c % 256) [97, 98] [97] 1 = none := by
  refine ⟨?_, by decide +kernel, by decide +kernel, by decide +kernel⟩
  intro k
  rw [occurs_iff (by simp)]
  intro h
  have h0 := h 0 (by simp)
  rcases k with _ | _ | k <;> simp at h0

/-- An empty pattern makes the search read in front of the pattern. -/
theorem match_empty_refuted (idx : α → Nat) (mem : List α) (n : Nat) : matchPattern idx [] mem n = none := by
  unfold matchPattern
  rw [matchLoop]; rfl

/-! ### C30: the backward pattern search -/

/-- **C30 (part).** Every position returned by the backward search is an occurrence. -/
theorem reverse_match_sound (idx : α → Nat) {p r : List α} (hp : p ≠ []) {k : Nat}
    (h : revMatch idx p r = some (some k)) : OccursAt p r k :=
  revMatchLoop_sound idx hp 0 h

example : revMatch (fun c : Nat => c % 256) [1, 2] [1, 2, 1, 2, 7, 9] = some (some 0) := by decide +kernel

/-- **C30 (part).** A pattern at the very end of the range is found. -/
theorem reverse_match_suffix_partial (idx : α → Nat) {p b : List α} (hp : p ≠ []) :
    revMatch idx p (b ++ p) = some (some b.length) ∧ LastAt p (b ++ p) b.length := by
  refine ⟨?_, ⟨b, [], by simp, rfl⟩, ?_⟩
  · unfold revMatch
    rw [revMatchLoop, cmpFwd_of_eq p hp (by simp)]
    · simp
    · intro i hi
      rw [List.getElem?_append_right (by simp)]
      congr 1; simp
  · intro j hj h
    have := occurs_length h
    simp at this; omega

example : revMatch (fun c : Nat => c % 256) [2, 1] ([5, 2, 1] ++ [2, 1]) = some (some 3) :=
  (reverse_match_suffix_partial _ (by simp)).1

/-- **C30 (part).** A pattern followed by elements that share no table entry with it is found when their number is a
multiple of the pattern's length plus two, the length of the default skip. -/
theorem reverse_match_blocks_partial (idx : α → Nat) {p b s : List α} (hp : p ≠ [])
    (hs : ∀ x ∈ s, ∀ c ∈ p, idx c ≠ idx x) (hd : p.length + 2 ∣ s.length) :
    revMatch idx p (b ++ p ++ s) = some (some b.length) ∧ LastAt p (b ++ p ++ s) b.length := by
  obtain ⟨k, hk⟩ := hd
  refine ⟨revMatchLoop_blocks idx hp hs k 0 (by rw [hk, Nat.mul_comm]; omega), ⟨b, s, rfl, rfl⟩, ?_⟩
  intro j hj h
  have hlen := occurs_length h
  have hpos : 0 < p.length := List.length_pos_iff.2 hp
  rw [occurs_iff hp] at h
  have h0 := h (p.length - 1) (by omega)
  simp only [List.length_append] at hlen
  rw [List.getElem?_append_right (by simp; omega)] at h0
  have hi : j + (p.length - 1) - (b ++ p).length < s.length := by simp; omega
  rw [List.getElem?_eq_getElem hi, List.getElem?_eq_getElem (by omega)] at h0
  injection h0 with h0
  exact hs _ (List.getElem_mem hi) _ (List.getElem_mem (by omega : p.length - 1 < p.length)) (by rw [h0])

example : revMatch (fun c : Nat => c % 256) [2, 1] ([5, 2, 1] ++ [2, 1] ++ [7, 8, 9, 10, 7, 8, 9, 10]) = some (some 3) :=
  (reverse_match_blocks_partial _ (by simp) (by decide) (by decide)).1

/-- **C30, patterns of one element, exactly.** Of a range of `n` elements only the last one and every third one before it
are looked at.  The answer is the last of those that equals the element; if there is none it is `nullptr` when `n` is one
more than a multiple of three, and otherwise memory in front of the range is read. -/
theorem reverse_match_single_characterised (idx : α → Nat) (a : α) (r : List α) :
    (∀ k, revMatch idx [a] r = some (some k) ↔
      r[k]? = some a ∧ 3 ∣ r.length - 1 - k ∧ ∀ j, k < j → r[j]? = some a → ¬ 3 ∣ r.length - 1 - j) ∧
    (revMatch idx [a] r = some none ↔ (∀ j, r[j]? = some a → ¬ 3 ∣ r.length - 1 - j) ∧ r.length % 3 = 1) ∧
    (revMatch idx [a] r = none ↔ (∀ j, r[j]? = some a → ¬ 3 ∣ r.length - 1 - j) ∧ r.length % 3 ≠ 1) := by
  rcases revMatchLoop_single idx a r (r.length - 0) 0 rfl (by omega) (fun _ _ _ => Nat.zero_le _) with
    ⟨k, h1, h2, h3, h4⟩ | ⟨h1, h2⟩
  · have h1' : revMatch idx [a] r = some (some k) := h1
    rw [h1']
    refine ⟨fun k' => ⟨?_, ?_⟩, ⟨nofun, fun h => absurd h3 (h.1 k h2)⟩, ⟨nofun, fun h => absurd h3 (h.1 k h2)⟩⟩
    · intro h; injection h with h; injection h with h; subst h; exact ⟨h2, h3, h4⟩
    · rintro ⟨g1, g2, g3⟩
      congr 2
      rcases Nat.lt_trichotomy k k' with h | h | h
      · exact absurd g2 (h4 k' h g1)
      · exact h
      · exact absurd h3 (g3 k h h2)
  · have h2' : revMatch idx [a] r = if r.length % 3 = 1 ∧ 0 < r.length then some none else none := h2
    rw [h2']
    by_cases hm : r.length % 3 = 1
    · rw [if_pos ⟨hm, by omega⟩]
      exact ⟨fun k => ⟨nofun, fun h => absurd h.2.1 (h1 k h.1)⟩, ⟨fun _ => ⟨h1, hm⟩, fun _ => rfl⟩,
        ⟨nofun, fun h => absurd hm h.2⟩⟩
    · rw [if_neg (fun h => hm h.1)]
      exact ⟨fun k => ⟨nofun, fun h => absurd h.2.1 (h1 k h.1)⟩, ⟨nofun, fun h => absurd h.2 hm⟩,
        ⟨fun _ => ⟨h1, hm⟩, fun _ => rfl⟩⟩

example : revMatch (fun c : Nat => c % 256) [7] [1, 7, 7, 7, 2] = some (some 1) := by decide +kernel

/-- **C30 is false of the code.** "aab" is not found in "xaabz"; for "ab" in "ababxy" an earlier occurrence is returned
instead of the last one; for "ab" in "abac", and for "a" in "ab", memory in front of the range is read.  The default skip
is one too long, the last element of the pattern has no entry, and of two equal elements the wrong one is entered. -/
theorem reverse_match_refuted :
    (OccursAt [97, 97, 98] [120, 97, 97, 98, 122] 1 ∧
      revMatch (fun c : Nat => c % 256) [97, 97, 98] [120, 97, 97, 98, 122] = some none) ∧
    (OccursAt [97, 98] [97, 98, 97, 98, 120, 121] 2 ∧
      revMatch (fun c : Nat => c % 256) [97, 98] [97, 98, 97, 98, 120, 121] = some (some 0)) ∧
    (OccursAt [97, 98] [97, 98, 97, 99] 0 ∧ revMatch (fun c : Nat => c % 256) [97, 98] [97, 98, 97, 99] = none) ∧
    (OccursAt [97] [97, 98] 0 ∧ revMatch (fun c : Nat => c % 256) [97] [97, 98] = none) := by
  refine ⟨⟨⟨[120], [122], rfl, rfl⟩, by decide +kernel⟩, ⟨⟨[97, 98], [120, 121], rfl, rfl⟩, by decide +kernel⟩,
    ⟨⟨[], [97, 99], rfl, rfl⟩, by decide +kernel⟩, ⟨[], [98], rfl, rfl⟩, by decide +kernel⟩

/-! ### C31: elements and sets of elements -/

/-- **C31 (single elements).** Forward and backward search for one element. -/
theorem in_range_correct (x : α) (r : List α) :
    IsFirst (fun y => y = x) r (inRange x r) ∧ IsLast (fun y => y = x) r (inRangeReverse x r) :=
  ⟨findFwd_isFirst (by simp) r, findBack_isLast (by simp) r⟩

/-- **C31 (sets, any element type with equality).** -/
theorem base_finds_correct (p r : List α) :
    IsFirst (fun y => y ∈ p) r (baseFindFirstOf p r) ∧ IsLast (fun y => y ∈ p) r (baseFindLastOf p r) ∧
    IsFirst (fun y => y ∉ p) r (baseFindFirstNotOf p r) ∧ IsLast (fun y => y ∉ p) r (baseFindLastNotOf p r) := by
  refine ⟨findFwd_isFirst (fun x => inRange_isSome x p) r, findBack_isLast (fun x => inRange_isSome x p) r,
    findFwd_isFirst (fun x => ?_) r, findBack_isLast (fun x => ?_) r⟩ <;>
  · rw [Bool.not_eq_true', ← Bool.not_eq_true, inRange_isSome]

/-- Elements of an integer type of `w < 64` bits. -/
theorem fits_of_lt {w : Nat} (hw : w < 64) {l : List Nat} (h : ∀ c ∈ l, c < 2 ^ w) : ∀ c ∈ l, Fits (isWide w) c := by
  intro c hc hwide
  have h1 := h c hc
  have h2 : 2 ^ w < 2 ^ 64 := Nat.pow_lt_pow_right (by decide) hw
  unfold isWide at hwide
  rw [Nat.mod_eq_of_lt h2] at hwide
  simp at hwide
  omega

theorem isFirst_congr {P Q : Nat → Prop} {r : List Nat} (h : ∀ x ∈ r, (P x ↔ Q x)) {o : Option Nat}
    (hP : IsFirst P r o) : IsFirst Q r o := by
  cases o with
  | none => exact fun x hx hq => hP x hx ((h x hx).2 hq)
  | some k =>
    obtain ⟨⟨x, h1, h2⟩, h3⟩ := hP
    exact ⟨⟨x, h1, (h x (List.mem_of_getElem? h1)).1 h2⟩, fun j hj y hy hq => h3 j hj y hy ((h y (List.mem_of_getElem? hy)).2 hq)⟩

theorem isLast_congr {P Q : Nat → Prop} {r : List Nat} (h : ∀ x ∈ r, (P x ↔ Q x)) {o : Option Nat}
    (hP : IsLast P r o) : IsLast Q r o := by
  cases o with
  | none => exact fun x hx hq => hP x hx ((h x hx).2 hq)
  | some k =>
    obtain ⟨⟨x, h1, h2⟩, h3⟩ := hP
    exact ⟨⟨x, h1, (h x (List.mem_of_getElem? h1)).1 h2⟩, fun j hj y hy hq => h3 j hj y hy ((h y (List.mem_of_getElem? hy)).2 hq)⟩

/-- **C31 (integers, part).** For integer types below 64 bits: `find_first_of`, `find_first_not_of` and
`find_last_not_of`, through the bitmark or not. -/
theorem finds_partial {w : Nat} (hw : w < 64) {p r : List Nat} (hp : ∀ c ∈ p, c < 2 ^ w) (hr : ∀ c ∈ r, c < 2 ^ w) :
    (∃ o, findFirstOf (isWide w) p r = some o ∧ IsFirst (fun y => y ∈ p) r o) ∧
    (∃ o, findFirstNotOf (isWide w) p r = some o ∧ IsFirst (fun y => y ∉ p) r o) ∧
    (∃ o, findLastNotOf (isWide w) p r = some o ∧ IsLast (fun y => y ∉ p) r o) := by
  have fp := fits_of_lt hw hp
  have fr := fits_of_lt hw hr
  obtain ⟨b1, b2, b3, b4⟩ := base_finds_correct p r
  unfold findFirstOf findFirstNotOf findLastNotOf
  cases hm : mark (isWide w) p (fun _ => false) with
  | none => exact ⟨⟨_, rfl, b1⟩, ⟨_, rfl, b3⟩, ⟨_, rfl, b4⟩⟩
  | some t =>
    refine ⟨⟨_, rfl, ?_⟩, ⟨_, rfl, ?_⟩, ⟨_, rfl, ?_⟩⟩
    · exact isFirst_congr (fun x hx => marked_iff fp hm (fr x hx))
        (findFwd_isFirst (P := fun x => marked (isWide w) t x = true) (by simp) r)
    · exact isFirst_congr (fun x hx => not_congr (marked_iff fp hm (fr x hx)))
        (findFwd_isFirst (P := fun x => ¬ marked (isWide w) t x = true) (by simp) r)
    · exact isLast_congr (fun x hx => not_congr (marked_iff fp hm (fr x hx)))
        (findBack_isLast (P := fun x => ¬ marked (isWide w) t x = true) (by simp) r)

example : ∃ o, findFirstOf (isWide 32) [300, 7] [5, 7, 300] = some o ∧ IsFirst (fun y => y ∈ [300, 7]) [5, 7, 300] o :=
  (finds_partial (w := 32) (by decide) (by decide) (by decide)).1

/-- **C31 (integers, part).** `find_last_of` is right when there is something to find, or when the set has a value above
255; otherwise (the last case) the code ends without a `return`. -/
theorem find_last_of_partial {w : Nat} (hw : w < 64) {p r : List Nat} (hp : ∀ c ∈ p, c < 2 ^ w) (hr : ∀ c ∈ r, c < 2 ^ w)
    (h : (∃ x ∈ r, x ∈ p) ∨ ∃ c ∈ p, 256 ≤ c) :
    ∃ o, findLastOf (isWide w) p r = some o ∧ IsLast (fun y => y ∈ p) r o := by
  have fp := fits_of_lt hw hp
  have fr := fits_of_lt hw hr
  unfold findLastOf
  cases hm : mark (isWide w) p (fun _ => false) with
  | none => exact ⟨_, rfl, (base_finds_correct p r).2.1⟩
  | some t =>
    have h1 : IsLast (fun y => y ∈ p) r (findBack (marked (isWide w) t) r) :=
      isLast_congr (fun x hx => marked_iff fp hm (fr x hx))
        (findBack_isLast (P := fun x => marked (isWide w) t x = true) (by simp) r)
    rcases h with ⟨x, hx, hxp⟩ | ⟨c, hc, hge⟩
    · dsimp only
      cases hf : findBack (marked (isWide w) t) r with
      | none => rw [hf] at h1; exact absurd hxp (h1 x hx)
      | some k => rw [hf] at h1; exact ⟨some k, rfl, h1⟩
    · have := (mark_spec p _ t fp hm).1 c hc
      omega

example : ∃ o, findLastOf (isWide 8) [1, 2] [5, 1, 9] = some o ∧ IsLast (fun y => y ∈ [1, 2]) [5, 1, 9] o :=
  find_last_of_partial (w := 8) (by decide) (by decide) (by decide) (Or.inl ⟨1, by simp, by simp⟩)

/-- **C31, what `find_last_of` does below 64 bits**: right, or without a `return`; the latter exactly when there is nothing to find and
all values of the set are below 256. -/
theorem find_last_of_characterised {w : Nat} (hw : w < 64) {p r : List Nat} (hp : ∀ c ∈ p, c < 2 ^ w) (hr : ∀ c ∈ r, c < 2 ^ w) :
    (findLastOf (isWide w) p r = none ↔ (∀ x ∈ r, x ∉ p) ∧ ∀ c ∈ p, c < 256) ∧
    ∀ o, findLastOf (isWide w) p r = some o → IsLast (fun y => y ∈ p) r o := by
  by_cases h : (∃ x ∈ r, x ∈ p) ∨ ∃ c ∈ p, 256 ≤ c
  · obtain ⟨o, h1, h2⟩ := find_last_of_partial hw hp hr h
    rw [h1]
    refine ⟨⟨nofun, fun ⟨h3, h4⟩ => ?_⟩, fun o' h => by cases h; exact h2⟩
    rcases h with ⟨x, hx, hxp⟩ | ⟨c, hc, hge⟩
    · exact absurd hxp (h3 x hx)
    · have := h4 c hc; omega
  · have h3 : (∀ x ∈ r, x ∉ p) ∧ ∀ c ∈ p, c < 256 :=
      ⟨fun x hx hxp => h (Or.inl ⟨x, hx, hxp⟩), fun c hc => by
        by_contra hge
        exact h (Or.inr ⟨c, hc, by omega⟩)⟩
    have hn : findLastOf (isWide w) p r = none := by
      have fp := fits_of_lt hw hp
      have fr := fits_of_lt hw hr
      unfold findLastOf
      cases hm : mark (isWide w) p (fun _ => false) with
      | none =>
        exfalso
        have hmk : ∀ (q : List Nat) (t : Nat → Bool), (∀ c ∈ q, c < 256) → mark (isWide w) q t ≠ none := by
          intro q
          induction q with
          | nil => intro t _ h; cases h
          | cons c cs ih =>
            intro t hq
            have : ¬ 256 ≤ c := by have := hq c (by simp); omega
            rw [mark]
            simp only [this, decide_false, Bool.and_false, Bool.false_eq_true, if_false]
            exact ih _ fun d hd => hq d (by simp [hd])
        exact hmk p _ h3.2 hm
      | some t =>
        have h1 : IsLast (fun y => y ∈ p) r (findBack (marked (isWide w) t) r) :=
          isLast_congr (fun x hx => marked_iff fp hm (fr x hx))
            (findBack_isLast (P := fun x => marked (isWide w) t x = true) (by simp) r)
        dsimp only
        cases hf : findBack (marked (isWide w) t) r with
        | none => rfl
        | some k =>
          rw [hf] at h1
          obtain ⟨⟨x, hx, hxp⟩, _⟩ := h1
          exact absurd hxp (h3.1 x (List.mem_of_getElem? hx))
    rw [hn]
    exact ⟨⟨fun _ => h3, fun _ => rfl⟩, fun o h => by cases h⟩

example : findLastOf (isWide 8) [1] [2, 3] = none :=
  (find_last_of_characterised (w := 8) (by decide) (by decide) (by decide)).1.2 (by decide)

/-- **C31, what the code does for types of 64 bits**: only the lowest bytes are compared, by all four functions; `find_last_of` again
has no `return` when there is nothing to find. -/
theorem finds_characterised {w : Nat} (hw : 64 ≤ w) (p r : List Nat) :
    (∃ o, findFirstOf (isWide w) p r = some o ∧ IsFirst (fun y => ∃ d ∈ p, d % 256 = y % 256) r o) ∧
    (∃ o, findFirstNotOf (isWide w) p r = some o ∧ IsFirst (fun y => ¬ ∃ d ∈ p, d % 256 = y % 256) r o) ∧
    (∃ o, findLastNotOf (isWide w) p r = some o ∧ IsLast (fun y => ¬ ∃ d ∈ p, d % 256 = y % 256) r o) ∧
    (findLastOf (isWide w) p r = none ↔ ∀ y ∈ r, ∀ d ∈ p, d % 256 ≠ y % 256) ∧
    ∀ o, findLastOf (isWide w) p r = some o → IsLast (fun y => ∃ d ∈ p, d % 256 = y % 256) r o := by
  rw [isWide_sixtyFour hw]
  obtain ⟨t, h1, h2⟩ := mark_low p (fun _ => false)
  have hm := marked_low h2
  unfold findFirstOf findFirstNotOf findLastNotOf findLastOf
  rw [h1]
  have hlast : IsLast (fun y => ∃ d ∈ p, d % 256 = y % 256) r (findBack (marked false t) r) :=
    isLast_congr (fun x _ => hm x) (findBack_isLast (P := fun x => marked false t x = true) (by simp) r)
  refine ⟨⟨_, rfl, ?_⟩, ⟨_, rfl, ?_⟩, ⟨_, rfl, ?_⟩, ?_, ?_⟩
  · exact isFirst_congr (fun x _ => hm x) (findFwd_isFirst (P := fun x => marked false t x = true) (by simp) r)
  · exact isFirst_congr (fun x _ => not_congr (hm x)) (findFwd_isFirst (P := fun x => ¬ marked false t x = true) (by simp) r)
  · exact isLast_congr (fun x _ => not_congr (hm x)) (findBack_isLast (P := fun x => ¬ marked false t x = true) (by simp) r)
  · dsimp only
    cases hf : findBack (marked false t) r with
    | none =>
      rw [hf] at hlast
      exact ⟨fun _ y hy d hd e => hlast y hy ⟨d, hd, e⟩, fun _ => rfl⟩
    | some k =>
      rw [hf] at hlast
      obtain ⟨⟨x, hx, d, hd, e⟩, _⟩ := hlast
      exact ⟨fun h => by simp at h, fun h => absurd e (h x (List.mem_of_getElem? hx) d hd)⟩
  · intro o ho
    dsimp only at ho
    cases hf : findBack (marked false t) r with
    | none => rw [hf] at ho; simp at ho
    | some k =>
      rw [hf] at ho hlast
      simp only [Option.map_some, Option.some.injEq] at ho
      subst ho
      exact hlast

example : ∃ o, findFirstOf (isWide 64) [300] [7, 44] = some o ∧
    IsFirst (fun y => ∃ d ∈ [300], d % 256 = y % 256) [7, 44] o := (finds_characterised (w := 64) (le_refl _) [300] [7, 44]).1

/-- **C31 is false of the code.** `find_last_of` with nothing to find has no return value; and for 64-bit types the number
of values is computed as 0, so that values are compared by their lowest byte: 257 is "found" in {1}. -/
theorem finds_refuted :
    (∀ r p : List Nat, (∀ c ∈ p, c < 256) → (∀ c ∈ r, c < 256) → (∀ x ∈ r, x ∉ p) → findLastOf (isWide 8) p r = none) ∧
    findFirstOf (isWide 64) [1] [257] = some (some 0) ∧ findFirstNotOf (isWide 64) [1] [257] = some none ∧
    findLastOf (isWide 64) [1] [257] = some (some 0) ∧ findLastNotOf (isWide 64) [1] [257] = some none := by
  refine ⟨?_, by decide +kernel, by decide +kernel, by decide +kernel, by decide +kernel⟩
  intro r p hp hr hno
  have fp := fits_of_lt (w := 8) (by decide) hp
  have fr := fits_of_lt (w := 8) (by decide) hr
  unfold findLastOf
  cases hm : mark (isWide 8) p (fun _ => false) with
  | none =>
    exfalso
    have : ∀ (q : List Nat) t, mark (isWide 8) q t ≠ none := by
      intro q
      induction q with
      | nil => intro t; simp [mark]
      | cons c cs ih =>
        intro t
        rw [mark, show isWide 8 = false by decide]
        exact ih _
    exact this _ _ hm
  | some t =>
    have h1 : IsLast (fun y => y ∈ p) r (findBack (marked (isWide 8) t) r) :=
      isLast_congr (fun x hx => marked_iff fp hm (fr x hx))
        (findBack_isLast (P := fun x => marked (isWide 8) t x = true) (by simp) r)
    cases hf : findBack (marked (isWide 8) t) r with
    | none => simp [hf]
    | some k =>
      rw [hf] at h1
      obtain ⟨⟨x, h2, h3⟩, _⟩ := h1
      exact absurd h3 (hno x (List.mem_of_getElem? h2))

/-! ### C57: the table for looking up positions -/

/-- **C57 (part).** For integer types below 64 bits, building the table of positions succeeds exactly when no element is
repeated and all are below 256; the table then gives the position of every element of the list and `npos` for every
other value. -/
theorem quick_unindex_partial {w : Nat} (hw : w < 64) {p : List Nat} (hp : ∀ c ∈ p, c < 2 ^ w) :
    ((∃ t, unindexMark (isWide w) 0 p (fun _ => none) = some t) ↔ p.Nodup ∧ ∀ c ∈ p, c < 256) ∧
    (∀ t, unindexMark (isWide w) 0 p (fun _ => none) = some t → ∀ c, c < 2 ^ w →
      (∀ i, unindex (isWide w) t c = some i ↔ p[i]? = some c) ∧ (unindex (isWide w) t c = none ↔ c ∉ p)) := by
  have fp := fits_of_lt hw hp
  refine ⟨⟨?_, ?_⟩, ?_⟩
  · rintro ⟨t, h⟩
    obtain ⟨h1, h2, _, _⟩ := unindexMark_spec p 0 _ t fp h
    exact ⟨h2, h1⟩
  · rintro ⟨h1, h2⟩
    exact unindexMark_total p 0 _ h2 h1 (by simp)
  · intro t h c hc
    obtain ⟨h1, h2, _, h4⟩ := unindexMark_spec p 0 _ t fp h
    have fc : Fits (isWide w) c := fits_of_lt hw (l := [c]) (by simpa using hc) c (by simp)
    have hlook : unindex (isWide w) t c = p.idxOf? c := by
      unfold unindex
      split
      · next hwide =>
        simp only [Bool.and_eq_true, decide_eq_true_eq] at hwide
        symm
        rw [List.idxOf?_eq_none_iff]
        intro hm
        have := h1 c hm; omega
      · next hwide =>
        have hlt : c < 256 := by
          cases hh : isWide w
          · exact fc hh
          · simpa [hh] using hwide
        rw [Nat.mod_eq_of_lt hlt, h4]
        cases p.idxOf? c <;> simp
    refine ⟨?_, ?_⟩
    · intro i
      rw [hlook]
      constructor
      · intro hi
        rw [List.idxOf?_eq_some_iff] at hi
        obtain ⟨hlt, he, _⟩ := hi
        rw [List.getElem?_eq_getElem hlt]
        simpa using he
      · intro hi
        rw [List.idxOf?_eq_some_iff]
        obtain ⟨hlt, he⟩ := List.getElem?_eq_some_iff.1 hi
        refine ⟨hlt, by simpa using he, ?_⟩
        intro j hj hje
        have hjl : j < p.length := by omega
        have := (List.Nodup.getElem_inj_iff h2 (hi := hjl) (hj := hlt)).1 (by rw [he]; simpa using hje)
        omega
    · rw [hlook, List.idxOf?_eq_none_iff]

example : (∃ t, unindexMark (isWide 8) 0 [48, 49] (fun _ => none) = some t) :=
  ((quick_unindex_partial (w := 8) (by decide) (p := [48, 49]) (by decide)).1).2 (by decide)

/-- **C57 is false of the code for 64-bit types**: 256 is looked up as 0. -/
theorem quick_unindex_refuted :
    (unindexMark (isWide 64) 0 [0] (fun _ => none)).map (fun t => unindex (isWide 64) t 256) = some (some 0) := by
  decide +kernel

/-- **C57, what the code does for types of 64 bits**: only the lowest bytes count.  Building the table succeeds exactly when no two
elements have the same lowest byte; it then gives for every value the position of the element with the same lowest byte, and `npos` if
there is none.  So a value that is not in the list is found exactly if it agrees with an element in the lowest byte. -/
theorem quick_unindex_characterised {w : Nat} (hw : 64 ≤ w) (p : List Nat) :
    ((∃ t, unindexMark (isWide w) 0 p (fun _ => none) = some t) ↔ (p.map (· % 256)).Nodup) ∧
    (∀ t, unindexMark (isWide w) 0 p (fun _ => none) = some t → ∀ c,
      (∀ i, unindex (isWide w) t c = some i ↔ ∃ d, p[i]? = some d ∧ d % 256 = c % 256) ∧
      (unindex (isWide w) t c = none ↔ ∀ d ∈ p, d % 256 ≠ c % 256)) := by
  rw [isWide_sixtyFour hw]
  have hb : ∀ c ∈ p.map (· % 256), c < 2 ^ 32 := by
    intro c hc
    obtain ⟨d, _, rfl⟩ := List.mem_map.1 hc
    have : d % 256 < 256 := Nat.mod_lt d (by decide)
    show d % 256 < 2 ^ 32
    omega
  obtain ⟨h1, h2⟩ := quick_unindex_partial (w := 32) (by decide) hb
  rw [show isWide 32 = true by decide +kernel, ← unindexMark_low] at h1 h2
  refine ⟨h1.trans ⟨And.left, fun h => ⟨h, ?_⟩⟩, fun t ht c => ?_⟩
  · intro c hc
    obtain ⟨d, _, rfl⟩ := List.mem_map.1 hc
    exact Nat.mod_lt d (by decide)
  · have hc : c % 256 < 256 := Nat.mod_lt c (by decide)
    obtain ⟨h3, h4⟩ := h2 t ht (c % 256) (by omega)
    rw [← unindex_low] at h3 h4
    refine ⟨fun i => (h3 i).trans ?_, h4.trans ?_⟩
    · rw [List.getElem?_map, Option.map_eq_some_iff]
    · simp only [List.mem_map, not_exists, not_and]

example : ∃ t, unindexMark (isWide 64) 0 [300, 1000] (fun _ => none) = some t ∧ unindex (isWide 64) t 44 = some 0 := by
  obtain ⟨t, ht⟩ := ((quick_unindex_characterised (w := 64) (le_refl _) [300, 1000]).1).2 (by decide)
  exact ⟨t, ht, (((quick_unindex_characterised (le_refl _) [300, 1000]).2 t ht 44).1 0).2 ⟨300, rfl, by decide⟩⟩

end ELC.Search
