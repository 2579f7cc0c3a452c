import Verif.Charat.Spec

/-! Property C197: characters of strings as values. -/
namespace ELC.Charat
open Spec

theorem toSize_nat (k : Nat) (h : k < 2 ^ 64) : toSize k = k := by
  unfold toSize; omega

theorem index_eq (p : Payload) (k : Nat) (h : IsIndex p k) : index p = k := by
  rcases h with ⟨rfl, h⟩ | ⟨rfl, h⟩
  · unfold index
    simp only [useInt, toSize_nat k (by omega), useUint]
    by_cases hk : k = 0 <;> simp [hk]
  · simp [index, useInt, useUint, toSize]

/-- C197: the value for position `k` of a string of at least `k+1` characters reads as the character there, whether `k` is
given as signed or unsigned integer, and copies of the value do so as well. -/
theorem get_char (h : Heap) (n : Nat) (s : List Nat) (p : Payload) (k : Nat) (hs : HasStr h n s) (hp : IsIndex p k)
    (hk : k < s.length) : get h (arec n p) = some (.char s[k]) ∧ get h (copy (arec n p)) = some (.char s[k]) := by
  unfold HasStr at hs
  simp [get, copy, arec, index_eq p k hp, hs, hk]

example : HasStr (fun m => if m = 3 then some (.str [97, 98, 99]) else none) 3 [97, 98, 99] ∧ IsIndex (.int 2) 2 := by
  constructor
  · rfl
  · left; simp

/-- C197: assigning a character to it changes this character of this string and nothing else. -/
theorem set_char (h : Heap) (n : Nat) (s : List Nat) (p : Payload) (k c : Nat) (hs : HasStr h n s) (hp : IsIndex p k)
    (hk : k < s.length) :
    ∃ h' s', beSet h (arec n p) (.char c) = some h' ∧ HasStr h' n s' ∧ s'.length = s.length ∧ s'[k]? = some c ∧
      (∀ j, j ≠ k → s'[j]? = s[j]?) ∧ ∀ m, m ≠ n → h' m = h m := by
  unfold HasStr at hs
  refine ⟨put h n (some (.str (s.set k c))), s.set k c, ?_, ?_, by simp, by simp [hk], ?_, ?_⟩
  · simp [beSet, arec, index_eq p k hp, hs, hk, useChar]
  · simp [HasStr, put]
  · intro j hj; rw [List.getElem?_set, if_neg (fun e => hj e.symm)]
  · intro m hm; simp [put, hm]

/-- C197: after any history of such assignments every character is the one last assigned to it, or the one it was. -/
theorem history_char (n : Nat) (w : List (Nat × Nat)) :
    ∀ (h : Heap) (s : List Nat), HasStr h n s → (∀ a ∈ w, a.1 < s.length) →
      ∃ h' s', run h (history n w) = some h' ∧ HasStr h' n s' ∧ s'.length = s.length ∧
        (∀ k c, s[k]? = some c → s'[k]? = some (last w k c)) ∧ ∀ m, m ≠ n → h' m = h m := by
  have run_append : ∀ (a b : List Op) (h : Heap), run h (a ++ b) = (run h a).bind fun y => run y b := by
    intro a
    induction a with
    | nil => intro b h; simp [run]
    | cons o a ih =>
      intro b h
      rw [List.cons_append, run, run]
      cases step h o with
      | none => simp
      | some y => simp [ih]
  induction w with
  | nil => intro h s hs _; exact ⟨h, s, rfl, hs, rfl, fun k c hk => by simpa [last] using hk, fun _ _ => rfl⟩
  | cons a w ih =>
    intro h s hs hw
    obtain ⟨h1, s1, e1, e2, e3, e4, e5⟩ := ih h s hs (fun b hb => hw b (by simp [hb]))
    have ha : a.1 < s1.length := by rw [e3]; exact hw a (by simp)
    have hx : index (.uint a.1) = a.1 := by simp [index, useInt, useUint, toSize]
    unfold HasStr at e2
    refine ⟨put h1 n (some (.str (s1.set a.1 a.2))), s1.set a.1 a.2, ?_, by simp [HasStr, put], by simp [e3], ?_, ?_⟩
    · have e : history n (a :: w) = history n w ++ [.assign n (.uint a.1) (.char a.2)] := by simp [history]
      rw [e, run_append, e1, Option.bind_some, run]
      simp [step, beSet, arec, hx, e2, ha, useChar, run]
    · intro k c hk
      rw [List.getElem?_set, last]
      by_cases hak : a.1 = k
      · rw [if_pos hak, if_pos hak, if_pos (by omega)]
      · rw [if_neg hak, if_neg hak]; exact e4 k c hk
    · intro m hm; simp [put, hm, e5 m hm]

example : ∃ h', run (fun m => if m = 3 then some (.str [97, 98, 99]) else none) (history 3 [(0, 120), (2, 121), (0, 122)]) =
    some h' ∧ h' 3 = some (.str [120, 98, 121]) := ⟨_, rfl, by decide +kernel⟩

/-- C197 is false of assignments of anything but a character: they make the character 0. -/
theorem set_other_refuted (h : Heap) (n : Nat) (s : List Nat) (p q : Payload) (k : Nat) (hs : HasStr h n s) (hp : IsIndex p k)
    (hk : k < s.length) (hq : ∀ c, q ≠ .char c) :
    ∃ h', beSet h (arec n p) q = some h' ∧ HasStr h' n (s.set k 0) := by
  unfold HasStr at hs
  refine ⟨put h n (some (.str (s.set k 0))), ?_, by simp [HasStr, put]⟩
  have : useChar q = 0 := by
    cases q with
    | char c => exact absurd rfl (hq c)
    | _ => rfl
  simp [beSet, arec, index_eq p k hp, hs, hk, this]

example : ∀ c, Payload.str [120] ≠ .char c := by intro c; simp

/-- C197 is false of positions that are no integers: the first character is taken. -/
theorem index_other_refuted (p : Payload) (h1 : ∀ i, p ≠ .int i) (h2 : ∀ k, p ≠ .uint k) (n : Nat) : arec n p = ⟨n, 0⟩ := by
  cases p with
  | int i => exact absurd rfl (h1 i)
  | uint k => exact absurd rfl (h2 k)
  | _ => simp [arec, index, useInt, useUint, toSize]

example : (∀ i, Payload.char 50 ≠ .int i) ∧ ∀ k, Payload.char 50 ≠ .uint k := ⟨by simp, by simp⟩

/-- C197, exactly where reading is undefined: the node is gone or has no string, or the string is not longer than the position.
A negative position counts from 2^64 down. -/
theorem get_characterised (h : Heap) (n : Nat) (p : Payload) :
    get h (arec n p) = none ↔ ∀ s, h n = some (.str s) → s.length ≤ index p := by
  unfold get arec
  constructor
  · intro hg s hs
    simp only [hs] at hg
    simpa using hg
  · intro hs
    dsimp only
    split
    · rename_i s hh
      simpa using hs s hh
    · rfl

/-- C197: assigning is undefined exactly where reading is. -/
theorem set_characterised (h : Heap) (n : Nat) (p q : Payload) :
    beSet h (arec n p) q = none ↔ get h (arec n p) = none := by
  unfold beSet get arec
  dsimp only
  cases h n with
  | none => simp
  | some x => cases x <;> simp

/-- C197 is false of negative positions: no string is long enough. -/
theorem negative_refuted (h : Heap) (n : Nat) (s : List Nat) (i : Int) (hs : HasStr h n s) (hi : -2 ^ 63 ≤ i ∧ i < 0)
    (hl : s.length < 2 ^ 63) : get h (arec n (.int i)) = none := by
  rw [get_characterised]
  intro s' hs'
  unfold HasStr at hs
  rw [hs] at hs'
  simp at hs'
  subst hs'
  have : toSize i = (i + 2 ^ 64).toNat := by unfold toSize; omega
  have h0 : ¬ (i + 2 ^ 64).toNat = 0 := by omega
  simp only [index, useInt, this, if_neg h0]
  omega

example : (-2 ^ 63 ≤ (-1 : Int) ∧ (-1 : Int) < 0) ∧ [97].length < 2 ^ 63 := by decide

/-- C197 is false of values that outlive their string: once nobody holds the string, reading and assigning are undefined,
although the value is still there. -/
theorem outlive_refuted (h : Heap) (n : Nat) (p q : Payload) :
    ∃ h', run h [.release n] = some h' ∧ get h' (arec n p) = none ∧ beSet h' (arec n p) q = none :=
  ⟨put h n none, rfl, by simp [get, arec, put], by simp [beSet, arec, put]⟩

/-- C197 is false of values that stay while the string becomes shorter. -/
theorem shorter_refuted (h : Heap) (n : Nat) (s : List Nat) (p q : Payload) (hs : HasStr h n s) :
    ∃ h', run h [.clear n] = some h' ∧ get h' (arec n p) = none ∧ beSet h' (arec n p) q = none := by
  unfold HasStr at hs
  refine ⟨put h n (some (.str [])), by simp [run, step, hs], by simp [get, arec, put], by simp [beSet, arec, put]⟩

end ELC.Charat
