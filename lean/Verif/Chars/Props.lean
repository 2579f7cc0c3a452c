import Verif.Chars.Lemmas

/-
C99, C100, C101 and C102: the classes of characters.
`f c = some true` says that the program's `f(c)` is true, `some false` that it is false, and `none`
that it reads outside its table.
-/
namespace ELC.Chars

open Spec

/-- The classes of S/char_set/isX.hpp. -/
def classes : List (Nat → Option Bool) :=
  [islower, isupper, istitle, isdigit, isxdigit, isalpha, isalnum, isdefined, isbase, iscntrl,
   isISOControl, isspace, isblank, isprint, isgraph, ispunct]

/-! ### C99 -/

/-- C99: no class reads outside the table, whatever the 32 bits of the character are. -/
theorem class_reads_inside (c : Nat) : ∀ f ∈ classes, (f c).isSome := by
  intro f hf
  simp only [classes, List.mem_cons, List.not_mem_nil, or_false] at hf
  rcases hf with h | h | h | h | h | h | h | h | h | h | h | h | h | h | h | h <;> subst h
  · rw [islower_eq]; rfl
  · rw [isupper_eq]; rfl
  · rw [istitle_eq]; rfl
  · rw [isdigit_eq]; rfl
  · rw [isxdigit_eq]; rfl
  · rw [isalpha_eq]; rfl
  · rw [isalnum_eq]; rfl
  · rw [isdefined_eq]; rfl
  · rw [isbase_eq]; rfl
  · rw [iscntrl_eq]; rfl
  · rfl
  · rw [isspace_eq]; rfl
  · rw [isblank_eq]; rfl
  · rw [isprint_eq]; rfl
  · rw [isgraph_eq]; rfl
  · rw [ispunct_eq]; rfl

/-- C99: a value that is no code point is in no class but is answered. -/
theorem class_beyond (c : Nat) (h : 0x10ffff < c) : ∀ f ∈ classes, f c = some false := by
  have e : category c = 0 := by unfold category; rw [if_neg (by omega)]
  intro f hf
  simp only [classes, List.mem_cons, List.not_mem_nil, or_false] at hf
  rcases hf with h | h | h | h | h | h | h | h | h | h | h | h | h | h | h | h <;> subst h
  · rw [islower_eq, e]; rfl
  · rw [isupper_eq, e]; rfl
  · rw [istitle_eq, e]; rfl
  · rw [isdigit_eq, e]; rfl
  · rw [isxdigit_eq, e, if_neg (by omega)]; rfl
  · rw [isalpha_eq, e]; rfl
  · rw [isalnum_eq, e]; rfl
  · rw [isdefined_eq, e]; rfl
  · rw [isbase_eq, e]; rfl
  · rw [iscntrl_eq, e]; rfl
  · unfold isISOControl; rw [decide_eq_false (by omega)]
  · rw [isspace_eq, e]; unfold isThatControlSpace; rw [decide_eq_false (by omega)]; rfl
  · rw [isblank_eq, e, if_neg (by omega)]; rfl
  · rw [isprint_eq, e]; rfl
  · rw [isgraph_eq, e]; rfl
  · rw [ispunct_eq, e]; rfl

example : (0x10ffff : Nat) < 0xffffffff := by decide

/-! ### C100 -/

theorem some_beq {a b : Nat} : some (a == b) = some true ↔ a = b := by simp

/-- C100: the decimal digits are the tens Unicode lists. -/
theorem digit_exact (c : Nat) : isdigit c = some true ↔ ∃ z ∈ digitZeros, z ≤ c ∧ c ≤ z + 9 := by
  rw [isdigit_eq, some_beq, category_digit]
  constructor
  · rintro ⟨r, hr, h⟩
    obtain ⟨z, hz, rfl⟩ := List.mem_map.mp hr
    exact ⟨z, hz, h⟩
  · rintro ⟨z, hz, h⟩
    exact ⟨(z, z + 9), List.mem_map.mpr ⟨z, hz, rfl⟩, h⟩

/-- C100: the hexadecimal digits. -/
theorem xdigit_exact (c : Nat) : isxdigit c = some true ↔
    (∃ z ∈ digitZeros, z ≤ c ∧ c ≤ z + 9) ∨
      In [(0x41, 0x46), (0x61, 0x66), (0xff21, 0xff26), (0xff41, 0xff46)] c := by
  rw [← digit_exact, isdigit_eq, some_beq, isxdigit_eq]
  by_cases h : (c ≤ 0x66 ∧ c ≥ 0x41 ∧ (c ≤ 0x46 ∨ c ≥ 0x61)) ∨
      (c ≥ 0xff21 ∧ c ≤ 0xff46 ∧ (c ≤ 0xff26 ∨ c ≥ 0xff41))
  · rw [if_pos h]
    simp only [In, List.mem_cons, List.not_mem_nil, or_false, exists_eq_or_imp, exists_eq_left,
      true_iff]
    right
    omega
  · rw [if_neg h, some_beq]
    simp only [In, List.mem_cons, List.not_mem_nil, or_false, exists_eq_or_imp, exists_eq_left]
    constructor
    · exact Or.inl
    · rintro (h' | h')
      · exact h'
      · exact absurd h' (by omega)

/-- The white space the program should know: the separators and ten control characters. -/
def whiteSpace : List (Nat × Nat) :=
  [(0x09, 0x0d), (0x1c, 0x20), (0x85, 0x85), (0xa0, 0xa0), (0x1680, 0x1680), (0x2000, 0x200a),
   (0x2028, 0x2029), (0x202f, 0x202f), (0x205f, 0x205f), (0x3000, 0x3000)]

theorem maskZ_iff : ∀ k, k < 30 → ((uMask k &&& maskZ != 0) = true ↔ k = 12 ∨ k = 13 ∨ k = 14) := by
  decide

/-- C100: white space. -/
theorem space_exact (c : Nat) : isspace c = some true ↔ In whiteSpace c := by
  rw [isspace_eq, Option.some.injEq, Bool.or_eq_true, maskZ_iff _ (category_lt c), category_space,
    category_line, category_paragraph]
  simp only [In, spaces, lineSeparators, paragraphSeparators, whiteSpace, isThatControlSpace,
    List.mem_cons, List.not_mem_nil, or_false, exists_eq_or_imp, exists_eq_left, decide_eq_true_eq]
  omega

/-- C100: blanks are the tabulator and the space separators. -/
theorem blank_exact (c : Nat) : isblank c = some true ↔ c = 9 ∨ In spaces c := by
  rw [isblank_eq, Option.some.injEq]
  by_cases h : c ≤ 0x9f
  · rw [if_pos h, decide_eq_true_eq]
    simp only [In, spaces, List.mem_cons, List.not_mem_nil, or_false, exists_eq_or_imp,
      exists_eq_left]
    omega
  · rw [if_neg h, beq_iff_eq, category_space]
    constructor
    · exact Or.inr
    · rintro (h' | h')
      · omega
      · exact h'

theorem maskCntrl_iff : ∀ k, k < 30 →
    ((uMask k &&& (uMask 15 ||| uMask 16 ||| uMask 13 ||| uMask 14) != 0) = true ↔
      k = 15 ∨ k = 16 ∨ k = 13 ∨ k = 14) := by
  decide

/-- C100: control characters are the controls, the formats and the line and paragraph separators. -/
theorem cntrl_exact (c : Nat) : iscntrl c = some true ↔
    In controls c ∨ In formats c ∨ In [(0x2028, 0x2029)] c := by
  rw [iscntrl_eq, Option.some.injEq, maskCntrl_iff _ (category_lt c), category_control,
    category_format, category_line, category_paragraph]
  have : In [(0x2028, 0x2029)] c ↔ In lineSeparators c ∨ In paragraphSeparators c := by
    simp only [In, lineSeparators, paragraphSeparators,
      List.mem_cons, List.not_mem_nil, or_false, exists_eq_left]
    omega
  rw [this]

/-- C100: the ISO controls are the controls the table knows. -/
theorem iso_control_exact (c : Nat) : isISOControl c = some true ↔ In controls c := by
  unfold isISOControl
  rw [Option.some.injEq, decide_eq_true_eq]
  simp only [In, controls, List.mem_cons, List.not_mem_nil, or_false, exists_eq_or_imp,
    exists_eq_left]
  omega

set_option maxRecDepth 100000 in
theorem nonchars_zero :
    (all2 (fun k => Nat.beq (Nat.mod (fastEntry (Nat.add (start (Nat.add (Nat.mul 2048 k) 2047)) 30)) 32) 0 &&
      Nat.beq (Nat.mod (fastEntry (Nat.add (start (Nat.add (Nat.mul 2048 k) 2047)) 31)) 32) 0) 4 0 &&
     all2 (fun k => Nat.beq (Nat.mod (fastEntry (Nat.add (start (Nat.add (Nat.mul 2048 k) 2047)) 30)) 32) 0 &&
      Nat.beq (Nat.mod (fastEntry (Nat.add (start (Nat.add (Nat.mul 2048 k) 2047)) 31)) 32) 0) 0 16 &&
     all2 (fun c => Nat.beq
      (Nat.mod (fastEntry (Nat.add (start (Nat.div c 32)) (Nat.mod c 32))) 32) 0) 5 0xfdd0) = true := by
  decide +kernel

/-- C100: noncharacters have no assigned type. -/
theorem nonchar_undefined (c : Nat) (h : Noncharacter c) : isdefined c = some false := by
  rw [isdefined_eq]
  suffices e : category c = 0 by rw [e]; rfl
  obtain ⟨h1, h2⟩ := h
  have hz := nonchars_zero
  rw [Bool.and_eq_true, Bool.and_eq_true] at hz
  unfold category
  rw [if_pos h1]
  have key : ∀ k, k < 17 → fastEntry (start (2048 * k + 2047) + 30) % 32 = 0 ∧
      fastEntry (start (2048 * k + 2047) + 31) % 32 = 0 := by
    intro k hk
    have h3 : (Nat.beq (Nat.mod (fastEntry (Nat.add (start (Nat.add (Nat.mul 2048 k) 2047)) 30)) 32) 0 &&
      Nat.beq (Nat.mod (fastEntry (Nat.add (start (Nat.add (Nat.mul 2048 k) 2047)) 31)) 32) 0) = true := by
      by_cases h16 : k < 16
      · exact all2_spec _ 4 0 hz.1.1 k (by omega) (by omega)
      · exact all2_spec _ 0 16 hz.1.2 k (by omega) (by omega)
    rw [Bool.and_eq_true] at h3
    exact ⟨Nat.eq_of_beq_eq_true h3.1, Nat.eq_of_beq_eq_true h3.2⟩
  rcases h2 with h2 | h2 | h2
  · exact Nat.eq_of_beq_eq_true (all2_spec _ 5 0xfdd0 hz.2 c (by omega) (by omega))
  · have a : c / 32 = 2048 * (c / 0x10000) + 2047 := by omega
    have b : c % 32 = 30 := by omega
    rw [a, b]
    exact (key (c / 0x10000) (by omega)).1
  · have a : c / 32 = 2048 * (c / 0x10000) + 2047 := by omega
    have b : c % 32 = 31 := by omega
    rw [a, b]
    exact (key (c / 0x10000) (by omega)).2

example : Noncharacter 0xfffe := by unfold Noncharacter; decide
example : Noncharacter 0x1ffff := by unfold Noncharacter; decide

/-- C100: surrogates and private use characters are defined; surrogates are neither printable nor
graphic. -/
theorem surrogate_class (c : Nat) (h : In surrogates c) : isdefined c = some true ∧
    isprint c = some false ∧ isgraph c = some false ∧ isalpha c = some false := by
  have e := (category_surrogate c).mpr h
  rw [isdefined_eq, isprint_eq, isgraph_eq, isalpha_eq, e]
  decide

example : In surrogates 0xdc00 := by decide

/-- C100: every character has a general category in the table, and the classes are made of the
categories Unicode makes them of. -/
theorem class_by_category (c : Nat) : ∃ p, getProps c = some p ∧ ∃ k : Category, getCategory p = k.code ∧
    isupper c = some (decide (k = .lu)) ∧ islower c = some (decide (k = .ll)) ∧
    istitle c = some (decide (k = .lt)) ∧ isdigit c = some (decide (k = .nd)) ∧
    isdefined c = some (decide (k ≠ .cn)) ∧ isalpha c = some (decide (k ∈ letters)) ∧
    isalnum c = some (decide (k ∈ letters ∨ k = .nd)) ∧ isbase c = some (decide (k ∈ bases)) ∧
    iscntrl c = some (decide (k ∈ [Category.cc, .cf, .zl, .zp])) ∧
    isprint c = some (decide (k ∉ unprintable)) ∧ isgraph c = some (decide (k ∉ invisible)) ∧
    ispunct c = some (decide (k ∈ punctuation)) := by
  obtain ⟨p, h1, h2⟩ := getCategory_eq c
  have hk : ∀ n, n < 30 → ∃ k : Category, k.code = n := by
    intro n hn
    refine ⟨[Category.cn, .lu, .ll, .lt, .lm, .lo, .mn, .me, .mc, .nd, .nl, .no, .zs, .zl, .zp, .cc,
      .cf, .co, .cs, .pd, .ps, .pe, .pc, .po, .sm, .sc, .sk, .so, .pi, .pf].getD n .cn, ?_⟩
    revert n
    decide
  obtain ⟨k, hk⟩ := hk _ (category_lt c)
  refine ⟨p, h1, k, h2.trans hk.symm, ?_⟩
  rw [isupper_eq, islower_eq, istitle_eq, isdigit_eq, isdefined_eq, isalpha_eq, isalnum_eq, isbase_eq,
    iscntrl_eq, isprint_eq, isgraph_eq, ispunct_eq, ← hk]
  revert k
  intro k _ 
  cases k <;> decide

/-! ### C101 -/

set_option synthInstance.maxSize 2000 in
set_option synthInstance.maxHeartbeats 200000 in
/-- C101: how the classes are related, for every character. -/
theorem class_relations (c : Nat) :
    (isalnum c = some true ↔ isalpha c = some true ∨ isdigit c = some true) ∧
    (islower c = some true ∨ isupper c = some true ∨ istitle c = some true → isalpha c = some true) ∧
    (islower c = some true → isupper c = some false ∧ istitle c = some false) ∧
    (isupper c = some true → istitle c = some false) ∧
    (isalpha c = some true → isdigit c = some false) ∧
    (isalnum c = some true → isbase c = some true ∧ isgraph c = some true ∧ isprint c = some true ∧
      ispunct c = some false) ∧
    (ispunct c = some true → isgraph c = some true ∧ isprint c = some true) ∧
    (isgraph c = some true ∨ isprint c = some true ∨ isbase c = some true ∨ iscntrl c = some true →
      isdefined c = some true) ∧
    (iscntrl c = some true → isgraph c = some false) := by
  have key : ∀ k, k < 30 →
      ((some (uMask k &&& (maskL ||| maskNd) != 0) = some true ↔
        some (uMask k &&& maskL != 0) = some true ∨ some (k == 9) = some true) ∧
      (some (k == 2) = some true ∨ some (k == 1) = some true ∨ some (k == 3) = some true →
        some (uMask k &&& maskL != 0) = some true) ∧
      (some (k == 2) = some true → some (k == 1) = some false ∧ some (k == 3) = some false) ∧
      (some (k == 1) = some true → some (k == 3) = some false) ∧
      (some (uMask k &&& maskL != 0) = some true → some (k == 9) = some false) ∧
      (some (uMask k &&& (maskL ||| maskNd) != 0) = some true →
        some (uMask k &&& (maskL ||| maskN ||| maskMc ||| maskMe) != 0) = some true ∧
        some (uMask k &&& (uMask 15 ||| uMask 16 ||| uMask 18 ||| uMask 0 ||| maskZ) == 0) = some true ∧
        some (uMask k &&& maskC == 0) = some true ∧
        some (uMask k &&& maskP != 0) = some false) ∧
      (some (uMask k &&& maskP != 0) = some true →
        some (uMask k &&& (uMask 15 ||| uMask 16 ||| uMask 18 ||| uMask 0 ||| maskZ) == 0) = some true ∧
        some (uMask k &&& maskC == 0) = some true) ∧
      (some (uMask k &&& (uMask 15 ||| uMask 16 ||| uMask 18 ||| uMask 0 ||| maskZ) == 0) = some true ∨
        some (uMask k &&& maskC == 0) = some true ∨
        some (uMask k &&& (maskL ||| maskN ||| maskMc ||| maskMe) != 0) = some true ∨
        some (uMask k &&& (uMask 15 ||| uMask 16 ||| uMask 13 ||| uMask 14) != 0) = some true →
        some (k != 0) = some true) ∧
      (some (uMask k &&& (uMask 15 ||| uMask 16 ||| uMask 13 ||| uMask 14) != 0) = some true →
        some (uMask k &&& (uMask 15 ||| uMask 16 ||| uMask 18 ||| uMask 0 ||| maskZ) == 0) = some false)) := by
    decide
  rw [isalnum_eq, isalpha_eq, isdigit_eq, islower_eq, isupper_eq, istitle_eq, isbase_eq, isgraph_eq,
    isprint_eq, ispunct_eq, iscntrl_eq, isdefined_eq]
  exact key _ (category_lt c)

/-- C101: blanks are white space, white space is never graphic, digits are hexadecimal digits, and
hexadecimal digits are letters or digits. -/
theorem class_relations_space (c : Nat) :
    (isblank c = some true → isspace c = some true) ∧
    (isspace c = some true → isgraph c = some false ∧ isalnum c = some false) ∧
    (isdigit c = some true → isxdigit c = some true) ∧
    (isISOControl c = some true → iscntrl c = some true) := by
  refine ⟨?_, ?_, ?_, ?_⟩
  · rw [blank_exact, space_exact]
    simp only [In, spaces, whiteSpace, List.mem_cons, List.not_mem_nil, or_false, exists_eq_or_imp,
      exists_eq_left]
    omega
  · rw [isspace_eq, isgraph_eq, isalnum_eq]
    have hk := category_lt c
    intro h
    rw [Option.some.injEq, Bool.or_eq_true, maskZ_iff _ hk] at h
    have h' : category c = 12 ∨ category c = 13 ∨ category c = 14 ∨ category c = 15 := by
      rcases h with (h | h | h) | h
      · exact Or.inl h
      · exact Or.inr (Or.inl h)
      · exact Or.inr (Or.inr (Or.inl h))
      · refine Or.inr (Or.inr (Or.inr ?_))
        rw [category_control]
        simp only [isThatControlSpace, decide_eq_true_eq] at h
        simp only [In, controls, List.mem_cons, List.not_mem_nil, or_false, exists_eq_or_imp,
          exists_eq_left]
        omega
    rcases h' with h' | h' | h' | h' <;> rw [h'] <;> decide
  · rw [xdigit_exact, ← digit_exact]
    exact Or.inl
  · rw [cntrl_exact, iso_control_exact]
    exact Or.inl

set_option maxRecDepth 100000 in
theorem hex_letters : ∀ c ∈ [0x41, 0x42, 0x43, 0x44, 0x45, 0x46, 0x61, 0x62, 0x63, 0x64, 0x65, 0x66,
    0xff21, 0xff22, 0xff23, 0xff24, 0xff25, 0xff26, 0xff41, 0xff42, 0xff43, 0xff44, 0xff45, 0xff46],
    isalpha c = some true := by decide +kernel

/-- C101: hexadecimal digits are letters or digits. -/
theorem xdigit_alnum (c : Nat) (h : isxdigit c = some true) : isalnum c = some true := by
  rw [(class_relations c).1]
  rw [xdigit_exact, ← digit_exact] at h
  rcases h with h | h
  · exact Or.inr h
  · refine Or.inl (hex_letters c ?_)
    simp only [In, List.mem_cons, List.not_mem_nil, or_false, exists_eq_or_imp,
      exists_eq_left] at h
    simp only [List.mem_cons, List.not_mem_nil, or_false]
    omega

example : isxdigit 0xff41 = some true := (xdigit_exact _).mpr (Or.inr (by decide))

/-- C101 is false where it says that graphic characters are printable: private use. -/
theorem graph_print_refuted : ¬ ∀ c, isgraph c = some true → isprint c = some true := by
  intro h
  have e : category 0xe000 = 17 := (category_private _).mpr (by decide)
  have := h 0xe000
  rw [isgraph_eq, isprint_eq, e] at this
  revert this
  decide

/-- C101: private use is the only exception. -/
theorem graph_print_characterised (c : Nat) :
    (isgraph c = some true ∧ isprint c = some false) ↔ In privateUse c := by
  rw [isgraph_eq, isprint_eq, ← category_private]
  have key : ∀ k, k < 30 →
    ((some (uMask k &&& (uMask 15 ||| uMask 16 ||| uMask 18 ||| uMask 0 ||| maskZ) == 0) = some true ∧
      some (uMask k &&& maskC == 0) = some false) ↔ k = 17) := by decide
  exact key _ (category_lt c)

/-- C101 is false where it says that no control character is printable: U+2028. -/
theorem cntrl_print_refuted : ¬ ∀ c, iscntrl c = some true → isprint c = some false := by
  intro h
  have e : category 0x2028 = 13 := (category_line _).mpr (by decide)
  have := h 0x2028
  rw [iscntrl_eq, isprint_eq, e] at this
  revert this
  decide

/-- C101: the line and the paragraph separator are the only exceptions. -/
theorem cntrl_print_characterised (c : Nat) :
    (iscntrl c = some true ∧ isprint c = some true) ↔ c = 0x2028 ∨ c = 0x2029 := by
  rw [iscntrl_eq, isprint_eq]
  have key : ∀ k, k < 30 →
    ((some (uMask k &&& (uMask 15 ||| uMask 16 ||| uMask 13 ||| uMask 14) != 0) = some true ∧
      some (uMask k &&& maskC == 0) = some true) ↔ k = 13 ∨ k = 14) := by decide
  rw [key _ (category_lt c), category_line, category_paragraph]
  simp only [In, lineSeparators, paragraphSeparators, List.mem_cons, List.not_mem_nil, or_false,
    exists_eq_left]
  omega

/-- C101: what is printable is graphic or a separator. -/
theorem print_iff (c : Nat) : isprint c = some true ↔
    (isgraph c = some true ∧ ¬ In privateUse c) ∨ In spaces c ∨ c = 0x2028 ∨ c = 0x2029 := by
  have e : c = 0x2028 ∨ c = 0x2029 ↔ In lineSeparators c ∨ In paragraphSeparators c := by
    simp only [In, lineSeparators, paragraphSeparators, List.mem_cons, List.not_mem_nil, or_false,
      exists_eq_left]
    omega
  rw [e, isgraph_eq, isprint_eq, ← category_private, ← category_space, ← category_line,
    ← category_paragraph]
  have key : ∀ k, k < 30 →
    (some (uMask k &&& maskC == 0) = some true ↔
      (some (uMask k &&& (uMask 15 ||| uMask 16 ||| uMask 18 ||| uMask 0 ||| maskZ) == 0) = some true ∧
        ¬ k = 17) ∨ k = 12 ∨ k = 13 ∨ k = 14) := by decide
  exact key _ (category_lt c)

/-! ### C102 -/

set_option maxRecDepth 100000 in
set_option synthInstance.maxSize 2000 in
set_option synthInstance.maxHeartbeats 200000 in
/-- C102: on ASCII the classes are the ones of the C library, except white space and punctuation. -/
theorem ascii_partial : ∀ c, c < 128 →
    (islower c = some true ↔ 0x61 ≤ c ∧ c ≤ 0x7a) ∧ (isupper c = some true ↔ 0x41 ≤ c ∧ c ≤ 0x5a) ∧
    (isdigit c = some true ↔ 0x30 ≤ c ∧ c ≤ 0x39) ∧
    (isxdigit c = some true ↔
      (0x30 ≤ c ∧ c ≤ 0x39) ∨ (0x41 ≤ c ∧ c ≤ 0x46) ∨ (0x61 ≤ c ∧ c ≤ 0x66)) ∧
    (isalpha c = some true ↔ (0x41 ≤ c ∧ c ≤ 0x5a) ∨ (0x61 ≤ c ∧ c ≤ 0x7a)) ∧
    (isalnum c = some true ↔
      (0x30 ≤ c ∧ c ≤ 0x39) ∨ (0x41 ≤ c ∧ c ≤ 0x5a) ∨ (0x61 ≤ c ∧ c ≤ 0x7a)) ∧
    (isblank c = some true ↔ c = 9 ∨ c = 0x20) ∧ (iscntrl c = some true ↔ c < 0x20 ∨ c = 0x7f) ∧
    (isprint c = some true ↔ 0x20 ≤ c ∧ c ≤ 0x7e) ∧ (isgraph c = some true ↔ 0x21 ≤ c ∧ c ≤ 0x7e) ∧
    isdefined c = some true ∧ istitle c = some false := by
  decide +kernel

/-- White space of the C library. -/
def cSpace (c : Nat) : Prop := c = 0x20 ∨ (9 ≤ c ∧ c ≤ 0xd)

/-- Punctuation of the C library: graphic and neither letter nor digit. -/
def cPunct (c : Nat) : Prop :=
  (0x21 ≤ c ∧ c ≤ 0x2f) ∨ (0x3a ≤ c ∧ c ≤ 0x40) ∨ (0x5b ≤ c ∧ c ≤ 0x60) ∨ (0x7b ≤ c ∧ c ≤ 0x7e)

/-- C102 is false for white space: the separators 0x1c to 0x1f are white space here. -/
theorem ascii_space_refuted : ¬ ∀ c, c < 128 → (isspace c = some true ↔ cSpace c) := by
  intro h
  have h1 : isspace 0x1c = some true := (space_exact _).mpr (by decide)
  have h2 := (h 0x1c (by decide)).mp h1
  unfold cSpace at h2
  omega

/-- C102: they are the only difference. -/
theorem ascii_space_characterised (c : Nat) (hc : c < 128) :
    isspace c = some true ↔ cSpace c ∨ (0x1c ≤ c ∧ c ≤ 0x1f) := by
  rw [space_exact]
  simp only [In, whiteSpace, cSpace, List.mem_cons, List.not_mem_nil, or_false, exists_eq_or_imp,
    exists_eq_left]
  omega

set_option maxRecDepth 100000 in
/-- C102: punctuation of the C library without the symbols `$+<=>^` + "`" + `|~`. -/
theorem ascii_punct_characterised : ∀ c, c < 128 → (ispunct c = some true ↔
    cPunct c ∧ c ∉ [0x24, 0x2b, 0x3c, 0x3d, 0x3e, 0x5e, 0x60, 0x7c, 0x7e]) := by
  unfold cPunct
  decide +kernel

/-- C102 is false for punctuation: `+` is none here. -/
theorem ascii_punct_refuted : ¬ ∀ c, c < 128 → (ispunct c = some true ↔ cPunct c) := by
  intro h
  have h1 := (h 0x2b (by decide)).mpr (by unfold cPunct; omega)
  have h2 := ((ascii_punct_characterised 0x2b (by decide)).mp h1).2
  exact h2 (by decide)

end ELC.Chars
