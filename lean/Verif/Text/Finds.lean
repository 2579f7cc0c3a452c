import Verif.Text.Query
import Verif.Search.Props
/-! Property C183: `find_first_of` and its relatives on strings. -/
namespace ELC.Text
open Hash Str Str.Spec StrEdit StrEdit.Spec Search.Spec Spec

variable {hc : Nat → Word}

/-- `find_last_of` has no result exactly when all characters looked for are below 256 and none is there. -/
theorem findLastOf_none {w : Nat} (hw : w < 64) {p r : List Nat} (hp : ∀ c ∈ p, c < 2 ^ w) (hr : ∀ c ∈ r, c < 2 ^ w) :
    Search.findLastOf (Search.isWide w) p r = none ↔ (∀ c ∈ p, c < 256) ∧ ∀ x ∈ r, x ∉ p := by
  constructor
  · intro h
    by_contra hc
    have h1 : (∃ x ∈ r, x ∈ p) ∨ ∃ c ∈ p, 256 ≤ c := by
      by_contra h2
      push Not at h2
      exact hc ⟨h2.2, h2.1⟩
    obtain ⟨o, e, _⟩ := Search.find_last_of_partial hw hp hr h1
    rw [h] at e; cases e
  · rintro ⟨h1, h2⟩
    have fp := Search.fits_of_lt hw hp
    have fr := Search.fits_of_lt hw hr
    have hm : ∀ (q : List Nat) (t : Nat → Bool), (∀ c ∈ q, c < 256) → ∃ t', Search.mark (Search.isWide w) q t = some t' := by
      intro q
      induction q with
      | nil => intro t _; exact ⟨t, rfl⟩
      | cons c cs ih =>
        intro t hq
        have : ¬ 256 ≤ c := by have := hq c (by simp); omega
        simp only [Search.mark, this, decide_false, Bool.and_false, Bool.false_eq_true, if_false]
        exact ih _ (fun c hc => hq c (by simp [hc]))
    obtain ⟨t', ht⟩ := hm p (fun _ => false) h1
    have key : IsLast (fun y => y ∈ p) r (Search.findBack (Search.marked (Search.isWide w) t') r) :=
      Search.isLast_congr (fun x hx => Search.marked_iff fp ht (fr x hx))
        (Search.findBack_isLast (P := fun x => Search.marked (Search.isWide w) t' x = true) (by simp) r)
    unfold Search.findLastOf
    rw [ht]
    dsimp only
    cases hf : Search.findBack (Search.marked (Search.isWide w) t') r with
    | none => rfl
    | some k =>
      rw [hf] at key
      obtain ⟨⟨x, hx, hxp⟩, _⟩ := key
      exact absurd hxp (h2 x (List.mem_of_getElem? hx))

theorem isFirst_one {c : Nat} {r : List Nat} {o : Option Nat} (h : IsFirst (· = c) r o) : IsFirst (· ∈ [c]) r o :=
  Search.isFirst_congr (fun x _ => by simp) h

theorem isLast_one {c : Nat} {r : List Nat} {o : Option Nat} (h : IsLast (· = c) r o) : IsLast (· ∈ [c]) r o :=
  Search.isLast_congr (fun x _ => by simp) h

/-- **C183.** For characters of fewer than 64 bits, however the two strings are stored: the first character of `t`
that is in `str`, the first that is not, and the last that is not. -/
theorem find_of_partial {w : Nat} (hw : w < 64) (zero : Nat) {t str : Text Nat} (o : Ok hc t) (d : OnNode DataOk t)
    (os : Ok hc str) (ds : OnNode DataOk str) (ht : ∀ c ∈ text t, c < 2 ^ w) (hs : ∀ c ∈ text str, c < 2 ^ w) :
    (∃ r, findFirstOf (Search.isWide w) zero t str = some r ∧ IsFirst (· ∈ text str) (text t) r) ∧
    (∃ r, findFirstNotOf (Search.isWide w) zero t str = some r ∧ IsFirst (· ∉ text str) (text t) r) ∧
    ∃ r, findLastNotOf (Search.isWide w) zero t str = some r ∧ IsLast (· ∉ text str) (text t) r := by
  have vt := view_ok zero o d
  have vs := view_ok zero os ds
  obtain ⟨k1, k2, k3⟩ := Search.finds_partial hw hs ht
  refine ⟨?_, ?_, ?_⟩
  · cases str with
    | lit p =>
      simp only [findFirstOf, findFirstOfV, vt, Option.bind_some]
      exact k1
    | chr c =>
      obtain ⟨r, e, h⟩ := (find_partial zero o d c).1
      exact ⟨r, e, isFirst_one h⟩
    | node m => simpa only [findFirstOf, findFirstOfV, vt, vs, Option.bind_some] using k1
  · simpa only [findFirstNotOf, vt, vs, Option.bind_some] using k2
  · simpa only [findLastNotOf, vt, vs, Option.bind_some] using k3

/-- **C183.** `find_last_of` gives the last character of `t` that is in `str`, and fails exactly when `str` is not a
single character, has only characters below 256, and none of them is in `t`: then the function ends without a
`return`. -/
theorem find_last_of_characterised {w : Nat} (hw : w < 64) (zero : Nat) {t str : Text Nat} (o : Ok hc t) (d : OnNode DataOk t)
    (os : Ok hc str) (ds : OnNode DataOk str) (ht : ∀ c ∈ text t, c < 2 ^ w) (hs : ∀ c ∈ text str, c < 2 ^ w) :
    (¬ OneChar str ∧ (∀ c ∈ text str, c < 256) ∧ (∀ x ∈ text t, x ∉ text str) ∧
      findLastOf (Search.isWide w) zero t str = none) ∨
    ((OneChar str ∨ (∃ c ∈ text str, 256 ≤ c) ∨ ∃ x ∈ text t, x ∈ text str) ∧
      ∃ r, findLastOf (Search.isWide w) zero t str = some r ∧ IsLast (· ∈ text str) (text t) r) := by
  have vt := view_ok zero o d
  have vs := view_ok zero os ds
  have main : (¬ OneChar str) → findLastOf (Search.isWide w) zero t str = Search.findLastOf (Search.isWide w) (text str) (text t) →
      (¬ OneChar str ∧ (∀ c ∈ text str, c < 256) ∧ (∀ x ∈ text t, x ∉ text str) ∧
        findLastOf (Search.isWide w) zero t str = none) ∨
      ((OneChar str ∨ (∃ c ∈ text str, 256 ≤ c) ∨ ∃ x ∈ text t, x ∈ text str) ∧
        ∃ r, findLastOf (Search.isWide w) zero t str = some r ∧ IsLast (· ∈ text str) (text t) r) := by
    intro hn e
    rw [e]
    by_cases h : (∃ x ∈ text t, x ∈ text str) ∨ ∃ c ∈ text str, 256 ≤ c
    · exact .inr ⟨.inr h.symm, Search.find_last_of_partial hw hs ht h⟩
    · push Not at h
      exact .inl ⟨hn, h.2, h.1, (findLastOf_none hw hs ht).2 ⟨h.2, h.1⟩⟩
  cases str with
  | lit p => exact main id (by simp only [findLastOf, vt, Option.bind_some]; rfl)
  | chr c =>
    obtain ⟨r, e, h⟩ := (find_partial zero o d c).2
    exact .inr ⟨.inl trivial, r, e, isLast_one h⟩
  | node m => exact main id (by simp only [findLastOf, vt, vs, Option.bind_some])

-- strings stored in three ways
example : findFirstOf (Search.isWide 32) 0 (.node (.sum fresh (.const fresh [5, 6]) (.same fresh 2 300) 2 2)) (.lit [300, 6])
    = some (some 1) := by decide +kernel
example : findLastNotOf (Search.isWide 32) 0 (.lit [5, 6, 300]) (.chr 300) = some (some 1) := by decide +kernel

/-- **C183 is false of the program.** The last of {'b', 'c'} in "a" is no position and no `npos`; of "b" it is `npos`. -/
theorem find_last_of_refuted : findLastOf (Search.isWide 32) 0 (.lit [97]) (.lit [98, 99]) = none ∧
    findLastOf (Search.isWide 32) 0 (.lit [97]) (.chr 98) = some none := by decide +kernel

end ELC.Text
