import Verif.Textio.Spec
import Verif.Numeral.Props
import Verif.Stream.Props
import Mathlib.Data.List.TakeWhile

/-
Numbers and truth values in text streams: C120 to C122.
-/
namespace ELC.Textio
open Spec Numeral Numeral.Spec
open Stream (In)
open Stream.Spec (IsSpace)

/-! ### Reading back -/

theorem takeWhile_black {w rest : List Nat} (hw : ∀ c ∈ w, ¬ IsSpace c) (hr : ∀ c r, rest = c :: r → IsSpace c) :
    (w ++ rest).takeWhile (fun c => !Stream.sp c) = w ∧ (w ++ rest).dropWhile (fun c => !Stream.sp c) = rest := by
  induction w with
  | nil =>
    match rest, hr with
    | [], _ => simp
    | c :: r, hr =>
      have := hr c r rfl
      have h : Stream.sp c = true := by simp [Stream.sp, this]
      simp [h]
  | cons c w ih =>
    have h : Stream.sp c = false := by
      have := hw c (by simp)
      simp [Stream.sp, this]
    obtain ⟨h1, h2⟩ := ih (fun c hc => hw c (by simp [hc]))
    constructor
    · rw [List.cons_append, List.takeWhile_cons_of_pos (by simp [h]), h1]
    · rw [List.cons_append, List.dropWhile_cons_of_pos (by simp [h]), h2]

theorem dropWhile_blank {b u : List Nat} (hb : Blank b) (hu : ∀ c r, u = c :: r → ¬ IsSpace c) :
    (b ++ u).dropWhile Stream.sp = u := by
  induction b with
  | nil =>
    match u, hu with
    | [], _ => simp
    | c :: r, hu =>
      have := hu c r rfl
      have h : Stream.sp c = false := by simp [Stream.sp, this]
      simp [h]
  | cons c b ih =>
    have h : Stream.sp c = true := by
      have := hb c (by simp)
      simp [Stream.sp, this]
    rw [List.cons_append, List.dropWhile_cons_of_pos h, ih (fun c hc => hb c (by simp [hc]))]

/-- A word between white space is read. -/
theorem readWord_between {b w rest : List Nat} (hb : Blank b) (hw : ∀ c ∈ w, ¬ IsSpace c) (hne : w ≠ [])
    (hr : ∀ c r, rest = c :: r → IsSpace c) : Stream.readWord ⟨b ++ w ++ rest, true⟩ = some (w, ⟨rest, true⟩) := by
  have hu : ∀ c r, w ++ rest = c :: r → ¬ IsSpace c := by
    intro c r h
    match w, hne, hw with
    | d :: w, _, hw =>
      injection h with h1 _
      exact h1 ▸ hw d (by simp)
  obtain ⟨h1, h2⟩ := takeWhile_black hw hr
  rw [Stream.readWord_eq, List.append_assoc, dropWhile_blank hb hu, h1, h2]

/-- What a word is read as. -/
def value (R : Rep) (B : BoolRep) (ty : Ty) (old : Int) (w : List Nat) : Option Int :=
  match ty with
  | .unsigned t => some (fromNative R t w {}).1
  | .signed t => (fromSigned R t w {}).map fun q => q.1
  | .bool => some (boolOf R B old w)

theorem read_between {R : Rep} {B : BoolRep} {ty : Ty} {old v : Int} {b w rest : List Nat} (hb : Blank b)
    (hw : ∀ c ∈ w, ¬ IsSpace c) (hne : w ≠ []) (hr : ∀ c r, rest = c :: r → IsSpace c)
    (hv : value R B ty old w = some v) : read R B ty old ⟨b ++ w ++ rest, true⟩ = some (v, ⟨rest, true⟩) := by
  unfold read
  rw [readWord_between hb hw hne hr, Option.bind_some]
  match ty, hv with
  | .unsigned t, hv => simp only [value, Option.some.injEq] at hv; simp only [hv]
  | .signed t, hv =>
    simp only [value] at hv
    match hf : fromSigned R t w {}, hv with
    | some q, hv => simp only [Option.map_some, Option.some.injEq] at hv; simp only [hf, Option.map_some, hv]
    | none, hv => cases hv
  | .bool, hv => simp only [value, Option.some.injEq] at hv; simp only [hv]

theorem numeral_black {R : Rep} (hn : NoSpace R) {s : List Nat} {n : Nat} (h : Numeral R s n) :
    (∀ c ∈ s, ¬ IsSpace c) ∧ s ≠ [] := by
  obtain ⟨ds, rfl, h1, _, h3, _⟩ := h
  refine ⟨?_, by simpa using h3⟩
  intro c hc
  obtain ⟨d, hd, rfl⟩ := List.mem_map.1 hc
  exact hn.1 d (h1 d hd)

/-- A value that can be written is a word that is read as the value. -/
theorem write_value {R : Rep} (hR : Usable R) (hn : NoSpace R) {B : BoolRep} (hB : Clear B) (i : Item) (hi : i.Writable)
    (old : Int) : ∃ s, write R B i.ty i.v = some s ∧ (∀ c ∈ s, ¬ IsSpace c) ∧ s ≠ [] ∧ value R B i.ty old s = some i.v := by
  obtain ⟨ty, v⟩ := i
  match ty, hi with
  | .unsigned t, hi =>
    simp only [Item.Writable] at hi
    obtain ⟨s, h1, h2, h3⟩ := native_round_trip hR.good t v.toNat (by omega) {}
    refine ⟨s, h1, (numeral_black hn h2).1, (numeral_black hn h2).2, ?_⟩
    simp only [value, h3, Option.some.injEq]
    omega
  | .signed t, hi =>
    simp only [Item.Writable] at hi
    obtain ⟨s, h1, h2, h3⟩ := signed_round_trip_partial hR.good hR.signs t hi.1 v hi.2.1 hi.2.2.1 hi.2.2.2 {}
    have h4 : (∀ c ∈ s, ¬ IsSpace c) ∧ s ≠ [] := by
      obtain ⟨ds, e, h5, _, h7, _⟩ : ∃ ds : List Nat, (s = ds.map R.getChar ∨ s = R.negSign :: ds.map R.getChar) ∧
          (∀ d ∈ ds, d < R.radix) ∧ True ∧ ds ≠ [] ∧ True := by
        rw [toStringSigned] at h1
        match ha : absSigned t v, h1 with
        | none, h1 => cases h1
        | some u, h1 =>
          rw [Option.bind_some] at h1
          obtain ⟨s', e1, ds, e2, e3, _, e5, _⟩ := toStringNative_spec hR.good.two u
          rw [e1, Option.map_some, Option.some.injEq] at h1
          refine ⟨ds, ?_, e3, trivial, e5, trivial⟩
          by_cases hv : v < 0
          · rw [if_pos hv] at h1; right; rw [← h1, e2]
          · rw [if_neg hv] at h1; left; rw [← h1, e2]
      have hd : ∀ c ∈ ds.map R.getChar, ¬ IsSpace c := by
        intro c hc
        obtain ⟨d, hd, rfl⟩ := List.mem_map.1 hc
        exact hn.1 d (h5 d hd)
      rcases e with e | e
      · exact ⟨e ▸ hd, by rw [e]; simpa using h7⟩
      · rw [e]
        refine ⟨?_, by simp⟩
        intro c hc
        rcases List.mem_cons.1 hc with rfl | hc
        · exact hn.2
        · exact hd c hc
    refine ⟨s, h1, h4.1, h4.2, ?_⟩
    simp only [value, h3, Option.map_some]
  | .bool, hi =>
    simp only [Item.Writable] at hi
    by_cases h1 : v = 1
    · refine ⟨B.yes, by simp only [write, if_pos h1], fun c hc => hB.black c (Or.inl hc), hB.yes_some, ?_⟩
      simp only [value, boolOf, if_true, h1]
    · by_cases h0 : v = 0
      · refine ⟨B.no, by simp only [write, if_neg h1, if_pos h0], fun c hc => hB.black c (Or.inr (Or.inl hc)), hB.no_some, ?_⟩
        simp only [value, boolOf, if_neg (Ne.symm hB.differ), if_true, h0]
      · obtain ⟨s, e1, e2, e3⟩ := native_round_trip hR.good 8 v.toNat (by omega) {}
        obtain ⟨e4, e5⟩ := numeral_black hn e2
        refine ⟨B.pre ++ s ++ B.suf, by simp only [write, if_neg h1, if_neg h0, e1, Option.map_some], ?_, ?_, ?_⟩
        · intro c hc
          rcases List.mem_append.1 hc with hc | hc
          · rcases List.mem_append.1 hc with hc | hc
            · exact hB.black c (Or.inr (Or.inr (Or.inl hc)))
            · exact e4 c hc
          · exact hB.black c (Or.inr (Or.inr (Or.inr hc)))
        · intro h; exact e5 (by simp at h; exact h.2.1)
        · have hp : B.pre <+: B.pre ++ s ++ B.suf := by rw [List.append_assoc]; exact List.prefix_append _ _
          have n1 : B.pre ++ s ++ B.suf ≠ B.yes := fun h => hB.yes (h ▸ hp)
          have n2 : B.pre ++ s ++ B.suf ≠ B.no := fun h => hB.no (h ▸ hp)
          have hd : (B.pre ++ s ++ B.suf).drop B.pre.length = s ++ B.suf := by
            rw [List.append_assoc, List.drop_left]
          have ht : (s ++ B.suf).take ((s ++ B.suf).length - B.suf.length) = s := by
            rw [List.length_append, Nat.add_sub_cancel, List.take_left]
          simp only [value, boolOf]
          rw [if_neg n1, if_neg n2, if_pos (List.isPrefixOf_iff_prefix.2 hp), hd,
            if_pos (List.isSuffixOf_iff_suffix.2 (List.suffix_append _ _)), ht, e3]
          simp only [Option.some.injEq]
          omega

/-- C120: values of any types written to a text stream one after the other, with white space between them, are read back
in that order, whatever the variables held before; what follows is left in the stream. -/
theorem read_back {R : Rep} (hR : Usable R) (hn : NoSpace R) {B : BoolRep} (hB : Clear B) (old : Ty → Int)
    (is : List (List Nat × Item)) (ha : Apart is) (hw : ∀ p ∈ is, p.2.Writable) (rest : List Nat)
    (hr : ∀ c r, rest = c :: r → IsSpace c) :
    ∃ t, writeAll R B is = some t ∧
      readAll R B old (is.map fun p => p.2.ty) ⟨t ++ rest, true⟩ = some (is.map fun p => p.2.v, ⟨rest, true⟩) := by
  induction is with
  | nil => exact ⟨[], rfl, rfl⟩
  | cons p is ih =>
    obtain ⟨b, i⟩ := p
    obtain ⟨hb, ha⟩ := ha
    have ha' : Apart is := by
      match is, ha with
      | [], _ => trivial
      | q :: is, ha => exact ⟨(ha q (by simp)).1, fun p hp => ha p (by simp [hp])⟩
    obtain ⟨t, e1, e2⟩ := ih ha' (fun p hp => hw p (by simp [hp]))
    obtain ⟨s, h1, h2, h3, h4⟩ := write_value hR hn hB i (hw (b, i) (by simp)) (old i.ty)
    have hr' : ∀ c r, t ++ rest = c :: r → IsSpace c := by
      match is, ha, e1 with
      | [], _, e1 =>
        injection e1 with e1
        subst e1
        exact hr
      | (b', i') :: is, ha, e1 =>
        obtain ⟨g1, g2⟩ := ha (b', i') (by simp)
        simp only [writeAll] at e1
        match hs : write R B i'.ty i'.v, e1 with
        | none, e1 => cases e1
        | some s', e1 =>
          rw [Option.bind_some] at e1
          match ht : writeAll R B is, e1 with
          | none, e1 => cases e1
          | some t', e1 =>
            rw [Option.map_some, Option.some.injEq] at e1
            intro c r h
            match b', g1, g2 with
            | d :: b', g1, _ =>
              rw [← e1] at h
              injection h with h _
              exact h ▸ g1 d (by simp)
    refine ⟨b ++ s ++ t, by simp only [writeAll, h1, e1, Option.bind_some, Option.map_some], ?_⟩
    simp only [List.map_cons, readAll]
    rw [List.append_assoc (b ++ s), read_between hb h2 h3 hr' h4, Option.bind_some, e2]
    rfl

/-- The built-in representations have no white space among their characters. -/
theorem builtin_no_space : NoSpace binary ∧ NoSpace trinary ∧ NoSpace octal ∧ NoSpace decimal ∧ NoSpace valanlottish ∧
    NoSpace hexadecimal ∧ NoSpace hexadecimalUpper := by
  have cont : ∀ zero radix ps, zero + radix ≤ 2 ^ 32 → (0x30 = zero ∧ radix ≤ 10 ∨ 0x3001 ≤ zero) →
      ∀ i, i < radix → ¬ IsSpace ((continuous zero radix ps).getChar i) := by
    intro zero radix ps h hz i hi
    simp only [continuous, defaultSigns]
    rw [Nat.mod_eq_of_lt (by omega)]
    unfold IsSpace
    omega
  refine ⟨⟨cont _ _ _ (by decide) (by decide), by decide⟩, ⟨cont _ _ _ (by decide) (by decide), by decide⟩,
    ⟨cont _ _ _ (by decide) (by decide), by decide⟩, ⟨cont _ _ _ (by decide) (by decide), by decide⟩,
    ⟨cont 0xA000 1165 [5, 233] (by decide) (by decide), by decide⟩, ⟨by decide, by decide⟩, ⟨by decide, by decide⟩⟩

theorem common_clear : Clear common :=
  ⟨by decide, by decide, by decide, by decide, by decide, by
    intro c hc
    simp only [common, List.mem_cons, List.not_mem_nil, or_false] at hc
    unfold IsSpace
    omega⟩

example : Apart [([], ⟨.signed 32, -17⟩), ([0x20], ⟨.bool, 1⟩), ([0x0a, 0x09], ⟨.unsigned 8, 255⟩), ([0x20], ⟨.bool, 7⟩)] ∧
    (⟨.signed 32, -17⟩ : Item).Writable ∧ (⟨.bool, 1⟩ : Item).Writable ∧ (⟨.unsigned 8, 255⟩ : Item).Writable ∧
    (⟨.bool, 7⟩ : Item).Writable := by
  refine ⟨?_, ?_, ?_, ?_, ?_⟩
  · unfold Apart Blank; decide
  all_goals (unfold Item.Writable; decide)

/-! ### Texts that are not such values -/

/-- C121, exactly: what a `bool` is after a word was read. -/
theorem read_bool_characterised (R : Rep) (hR : Good R) (B : BoolRep) (hB : Clear B) (old : Int) (w : List Nat) :
    (w = B.yes → boolOf R B old w = 1) ∧ (w = B.no → boolOf R B old w = 0) ∧
    (∀ s, w = B.pre ++ s ++ B.suf →
      (∀ n, Denotes R s n → boolOf R B old w = (n % 256 : Nat)) ∧ ((∃ c ∈ s, NotDigit R c) → boolOf R B old w = 0)) ∧
    (w ≠ B.yes → w ≠ B.no → (∀ s, w ≠ B.pre ++ s ++ B.suf) → boolOf R B old w = old) := by
  refine ⟨?_, ?_, ?_, ?_⟩
  · rintro rfl; simp only [boolOf, if_true]
  · rintro rfl; simp only [boolOf, if_neg (Ne.symm hB.differ), if_true]
  · rintro s rfl
    have hp : B.pre <+: B.pre ++ s ++ B.suf := by rw [List.append_assoc]; exact List.prefix_append _ _
    have n1 : B.pre ++ s ++ B.suf ≠ B.yes := fun h => hB.yes (h ▸ hp)
    have n2 : B.pre ++ s ++ B.suf ≠ B.no := fun h => hB.no (h ▸ hp)
    have hd : (B.pre ++ s ++ B.suf).drop B.pre.length = s ++ B.suf := by
      rw [List.append_assoc, List.drop_left]
    have ht : (s ++ B.suf).take ((s ++ B.suf).length - B.suf.length) = s := by
      rw [List.length_append, Nat.add_sub_cancel, List.take_left]
    have e : boolOf R B old (B.pre ++ s ++ B.suf) = ((fromNative R 8 s {}).1 : Int) := by
      simp only [boolOf]
      rw [if_neg n1, if_neg n2, if_pos (List.isPrefixOf_iff_prefix.2 hp), hd,
        if_pos (List.isSuffixOf_iff_suffix.2 (List.suffix_append _ _)), ht]
    have herr := from_string_error_iff hR 8 s {} rfl
    constructor
    · intro n hn
      rw [e, herr.2.2.1 n hn]
      rfl
    · rintro ⟨c, hc, hv⟩
      rw [e]
      have : fromNative R 8 s {} = (0, _) := fromLoop_invalid 8 s {} ⟨c, hc, (invalid_iff_notDigit hR c).2 hv⟩ 0
      rw [this]; rfl
  · intro h1 h2 h3
    simp only [boolOf]
    rw [if_neg h1, if_neg h2]
    by_cases hp : B.pre.isPrefixOf w = true
    · rw [if_pos hp]
      obtain ⟨u, rfl⟩ := List.isPrefixOf_iff_prefix.1 hp
      rw [List.drop_left]
      by_cases hs : B.suf.isSuffixOf u = true
      · obtain ⟨s, rfl⟩ := List.isSuffixOf_iff_suffix.1 hs
        exact absurd (List.append_assoc _ _ _).symm (h3 s)
      · rw [if_neg hs]
    · rw [if_neg hp]

/-- C121 is false of the program: there are texts that are no `bool` and change it nevertheless: a byte that is too large,
no digits, and no number. -/
theorem read_bool_refuted :
    read decimal common .bool 1 ⟨[0x6f, 0x74, 0x68, 0x65, 0x72, 0x28, 0x32, 0x35, 0x36, 0x29], true⟩ = some (0, ⟨[], true⟩) ∧
    read decimal common .bool 1 ⟨[0x6f, 0x74, 0x68, 0x65, 0x72, 0x28, 0x29], true⟩ = some (0, ⟨[], true⟩) ∧
    read decimal common .bool 1 ⟨[0x6f, 0x74, 0x68, 0x65, 0x72, 0x28, 0x78, 0x29], true⟩ = some (0, ⟨[], true⟩) := by
  refine ⟨?_, ?_, ?_⟩ <;> decide +kernel

/-- C122 is false of the program: reading a signed number from a stream that is at its end reads the first character of an
empty text; an unsigned one becomes 0 there. -/
theorem read_end_refuted : read decimal common (.signed 32) 5 ⟨[0x20], true⟩ = none ∧
    read decimal common (.unsigned 32) 5 ⟨[0x20], true⟩ = some (0, ⟨[], true⟩) := by
  constructor <;> decide +kernel

/-- C122, exactly: reading from a stream that ends is undefined for a signed number with no word left, and never else. -/
theorem read_end_characterised (R : Rep) (B : BoolRep) (ty : Ty) (old : Int) (t : List Nat) :
    read R B ty old ⟨t, true⟩ = none ↔ (∃ n, ty = .signed n) ∧ Blank t := by
  have hb : (t.dropWhile Stream.sp).takeWhile (fun c => !Stream.sp c) = [] ↔ Blank t := by
    constructor
    · intro h c hc
      have h0 : t.dropWhile Stream.sp = [] := by
        match hd : t.dropWhile Stream.sp, h with
        | [], _ => rfl
        | c :: r, h =>
          have hc : Stream.sp c = false := Stream.dropWhile_head hd
          simp [hc] at h
      have := List.dropWhile_eq_nil_iff.1 h0 c hc
      exact of_decide_eq_true this
    · intro h
      have h0 : t.dropWhile Stream.sp = [] := List.dropWhile_eq_nil_iff.2 fun c hc => decide_eq_true (h c hc)
      rw [h0]; rfl
  unfold read
  rw [Stream.readWord_eq, Option.bind_some, ← hb]
  match ty with
  | .unsigned n => simp
  | .bool => simp
  | .signed n =>
    match hw : (t.dropWhile Stream.sp).takeWhile (fun c => !Stream.sp c) with
    | [] => simp [fromSigned]
    | c :: r =>
      simp only [fromSigned]
      split
      · simp
      · split <;> simp

/-- C122 is false of the program: a number that is too large for its type, and a word that is no number, are read as some
other number, and nothing tells. -/
theorem read_wrong_refuted : read decimal common (.unsigned 8) 5 ⟨[0x32, 0x35, 0x37], true⟩ = some (1, ⟨[], true⟩) ∧
    read decimal common (.signed 8) 5 ⟨[0x32, 0x30, 0x30], true⟩ = some (-56, ⟨[], true⟩) ∧
    read decimal common (.unsigned 8) 5 ⟨[0x31, 0x78], true⟩ = some (0, ⟨[], true⟩) := by
  refine ⟨?_, ?_, ?_⟩ <;> decide +kernel

/-- C122, what holds: every word of digits is read as its number modulo the size of the type, every other as 0. -/
theorem read_unsigned_partial (R : Rep) (hR : Good R) (B : BoolRep) (t : Nat) (old : Int) (b w rest : List Nat) (hb : Blank b)
    (hw : ∀ c ∈ w, ¬ IsSpace c) (hne : w ≠ []) (hr : ∀ c r, rest = c :: r → IsSpace c) :
    (∀ n, Denotes R w n → read R B (.unsigned t) old ⟨b ++ w ++ rest, true⟩ = some (((n % 2 ^ t : Nat) : Int), ⟨rest, true⟩)) ∧
    ((∃ c ∈ w, NotDigit R c) → read R B (.unsigned t) old ⟨b ++ w ++ rest, true⟩ = some (0, ⟨rest, true⟩)) := by
  have herr := from_string_error_iff hR t w {} rfl
  constructor
  · intro n hn
    refine read_between hb hw hne hr ?_
    simp only [value]
    rw [herr.2.2.1 n hn]
  · rintro ⟨c, hc, hv⟩
    refine read_between hb hw hne hr ?_
    have : fromNative R t w {} = (0, _) := fromLoop_invalid t w {} ⟨c, hc, (invalid_iff_notDigit hR c).2 hv⟩ 0
    simp only [value]
    rw [this]; rfl

end ELC.Textio
