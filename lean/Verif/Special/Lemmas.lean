import Verif.Special.Spec
import Verif.Numeral.Props
/-! Helper lemmas for the text of NaN and of the infinities. -/
namespace ELC.Special
open ELC.Float (Info infinity)
open ELC.Numeral (Rep State toStringNative fromNative fromChar)
open ELC.Numeral.Spec (Denotes NotDigit)
open ELC.Special.Spec

variable {R : Rep} {W : Words} {I : Info}

theorem ofBytes_range (n d : Nat) : ofBytes ((List.range n).map fun i => d / 256 ^ i % 256) = d % 256 ^ n := by
  induction n generalizing d with
  | zero => simp [ofBytes, Nat.mod_one]
  | succ n ih =>
    rw [List.range_succ_eq_map, List.map_cons, List.map_map]
    have e : ((fun i => d / 256 ^ i % 256) ∘ Nat.succ) = fun i => d / 256 / 256 ^ i % 256 := by
      funext i
      show d / 256 ^ (i + 1) % 256 = _
      rw [Nat.div_div_eq_div_mul, pow_succ']
    rw [e]
    show d / 256 ^ 0 % 256 + 256 * ofBytes ((List.range n).map fun i => d / 256 / 256 ^ i % 256) = _
    rw [ih, pow_zero, Nat.div_one, pow_succ', Nat.mod_mul]

theorem width_eq (I : Info) : I.width = 8 * (I.width / 8) ∧ 1 ≤ I.width / 8 := by
  have : I.width = 8 * 2 ^ I.k := rfl
  have h := Nat.two_pow_pos I.k
  omega

theorem ofBytes_bytes {d : Nat} (hd : d < 2 ^ I.width) : ofBytes (bytes I d) = d := by
  unfold bytes
  rw [ofBytes_range, show (256 : Nat) = 2 ^ 8 from rfl, ← pow_mul, ← (width_eq I).1]
  exact Nat.mod_eq_of_lt hd

theorem bytes_length (I : Info) (d : Nat) : (bytes I d).length = I.width / 8 := by
  unfold bytes
  simp

theorem bytes_lt {d b : Nat} (h : b ∈ bytes I d) : b < 256 := by
  unfold bytes at h
  obtain ⟨i, _, rfl⟩ := List.mem_map.1 h
  exact Nat.mod_lt _ (by decide)

theorem idxOf?_field {c : Nat} {f : List Nat} (h : c ∉ f) (rest : List Nat) : (f ++ c :: rest).idxOf? c = some f.length := by
  rw [List.idxOf?_eq_some_iff]
  refine ⟨by simp, by simp, ?_⟩
  intro j hj
  rw [List.getElem_append_left hj]
  intro e
  exact h (e ▸ List.getElem_mem hj)

theorem joined_cons (c : Nat) (f : List Nat) {fs : List (List Nat)} (h : fs ≠ []) : joined c (f :: fs) = f ++ c :: joined c fs := by
  cases fs with
  | nil => exact absurd rfl h
  | cons g gs => rfl

theorem readSplit_last {n : Nat} {f block : List Nat} {st : State} (hst : st.error = false) (hf : W.dataSplit ∉ f) :
    readSplit R W n f block st =
      if n ≤ block.length then none else some (block ++ [(fromNative R 8 f st).1], (fromNative R 8 f st).2) := by
  rw [readSplit]
  have e : f.idxOf? W.dataSplit = none := List.idxOf?_eq_none_iff.2 hf
  rw [if_neg (by simp [hst])]
  split
  · rfl
  · rename_i p hp
    rw [e] at hp
    cases hp

theorem readSplit_field {n : Nat} {f rest block : List Nat} {st : State} (hst : st.error = false) (hf : W.dataSplit ∉ f) :
    readSplit R W n (f ++ W.dataSplit :: rest) block st =
      if n ≤ block.length then none
      else readSplit R W n rest (block ++ [(fromNative R 8 f st).1]) (fromNative R 8 f st).2 := by
  conv_lhs => rw [readSplit]
  have e := idxOf?_field hf rest
  rw [if_neg (by simp [hst])]
  split
  · rename_i hp
    rw [e] at hp
    cases hp
  · rename_i p hp
    rw [e, Option.some.injEq] at hp
    subst hp
    have e1 : (f ++ W.dataSplit :: rest).take f.length = f := by simp
    have e2 : (f ++ W.dataSplit :: rest).drop (f.length + 1) = rest := by
      rw [← List.drop_drop]
      simp
    dsimp only
    rw [e1, e2]

theorem fromNative_denotes (hR : Numeral.Spec.Good R) {f : List Nat} {v : Nat} (h : Denotes R f v) (st : State) :
    fromNative R 8 f st = (v % 256, st) := by
  obtain ⟨ds, rfl, h1, h2⟩ := h
  rw [Numeral.fromNative_digits hR 8 h1, h2]
  rfl

theorem denotes_not_mem {f : List Nat} {v c : Nat} (h : Denotes R f v) (hc : NotDigit R c) : c ∉ f := by
  obtain ⟨ds, rfl, h1, _⟩ := h
  intro hm
  obtain ⟨d, hd, e⟩ := List.mem_map.1 hm
  exact hc d (h1 d hd) e

/-- Fields that are numbers. -/
theorem readSplit_numbers (hR : Numeral.Spec.Good R) (hc : NotDigit R W.dataSplit) {n : Nat} {fs : List (List Nat)} {vs : List Nat}
    (h : List.Forall₂ (Denotes R) fs vs) (hne : fs ≠ []) {block : List Nat} {st : State} (hst : st.error = false) :
    readSplit R W n (joined W.dataSplit fs) block st =
      if block.length + fs.length ≤ n then some (block ++ vs.map (· % 256), st) else none := by
  induction h generalizing block with
  | nil => exact absurd rfl hne
  | @cons f v fs vs hf hfs ih =>
    have hm := denotes_not_mem hf hc
    by_cases hl : fs = []
    · subst hl
      cases hfs
      show readSplit R W n f block st = _
      rw [readSplit_last hst hm, fromNative_denotes hR hf]
      by_cases hn : n ≤ block.length
      · rw [if_pos hn, if_neg (by simp; omega)]
      · rw [if_neg hn, if_pos (by simp; omega)]
        rfl
    · rw [joined_cons _ _ hl, readSplit_field hst hm, fromNative_denotes hR hf]
      have hpos : 0 < fs.length := List.length_pos_iff.2 hl
      by_cases hn : n ≤ block.length
      · rw [if_pos hn, if_neg (by simp; omega)]
      · rw [if_neg hn, ih hl]
        rw [List.length_append, List.length_singleton, List.length_cons, List.append_assoc]
        have e : block.length + 1 + fs.length = block.length + (fs.length + 1) := by omega
        rw [e]
        rfl

/-- Fields of which one is not a number. -/
theorem readSplit_bad (hR : Numeral.Spec.Good R) (hc : NotDigit R W.dataSplit) {n : Nat} {fs : List (List Nat)} {vs : List Nat}
    (h : List.Forall₂ (Denotes R) fs vs) {bad : List Nat} (hb : ∃ c ∈ bad, R.isValid c = false) (hbs : W.dataSplit ∉ bad)
    (rest : List (List Nat)) {block : List Nat} {st : State} (hst : st.error = false) :
    (block.length + fs.length < n → ∃ l, readSplit R W n (joined W.dataSplit (fs ++ bad :: rest)) block st =
      some (l, { st with error := true, invalidChar := true })) ∧
    (n ≤ block.length + fs.length → readSplit R W n (joined W.dataSplit (fs ++ bad :: rest)) block st = none) := by
  have hbad : fromNative R 8 bad st = (0, { st with error := true, invalidChar := true }) := Numeral.fromLoop_invalid 8 bad st hb 0
  induction h generalizing block with
  | nil =>
    rw [List.nil_append]
    by_cases hr : rest = []
    · subst hr
      show (_ → ∃ l, readSplit R W n bad block st = _) ∧ (_ → readSplit R W n bad block st = _)
      rw [readSplit_last hst hbs, hbad]
      constructor
      · intro hn
        rw [if_neg (by simp at hn; omega)]
        exact ⟨_, rfl⟩
      · intro hn
        rw [if_pos (by simpa using hn)]
    · rw [joined_cons _ _ hr, readSplit_field hst hbs, hbad]
      constructor
      · intro hn
        rw [if_neg (by simp at hn; omega), readSplit, if_pos rfl]
        exact ⟨_, rfl⟩
      · intro hn
        rw [if_pos (by simpa using hn)]
  | @cons f v fs vs hf hfs ih =>
    have hm := denotes_not_mem hf hc
    rw [List.cons_append, joined_cons _ _ (by simp), readSplit_field hst hm, fromNative_denotes hR hf]
    have := @ih (block ++ [v % 256])
    simp only [List.length_append, List.length_nil, List.length_cons] at this ⊢
    constructor
    · intro hn
      rw [if_neg (by omega)]
      exact this.1 (by omega)
    · intro hn
      by_cases hb : n ≤ block.length
      · rw [if_pos hb]
      · rw [if_neg hb]
        exact this.2 (by omega)

theorem numeral_denotes {f : List Nat} {v : Nat} (h : Numeral.Spec.Numeral R f v) : Denotes R f v := by
  obtain ⟨ds, h1, h2, h3, _⟩ := h
  exact ⟨ds, h1, h2, h3⟩

theorem dataText_split (hR : Numeral.Spec.Good R) (hr : R.radix < 256) (bs : List Nat) :
    ∃ fs, List.Forall₂ (Denotes R) fs bs ∧ dataText R W bs = some (fs.flatMap fun f => f ++ [W.dataSplit]) := by
  induction bs with
  | nil => exact ⟨[], .nil, rfl⟩
  | cons b bs ih =>
    obtain ⟨fs, h1, h2⟩ := ih
    obtain ⟨t, t1, t2⟩ := Numeral.toStringNative_spec hR.two b
    refine ⟨t :: fs, .cons (numeral_denotes t2) h1, ?_⟩
    unfold dataText
    rw [t1, h2, Option.bind_some, Option.map_some, if_pos hr]
    simp

theorem flatMap_joined (c : Nat) {fs : List (List Nat)} (h : fs ≠ []) : (fs.flatMap fun f => f ++ [c]) = joined c fs ++ [c] := by
  induction fs with
  | nil => exact absurd rfl h
  | cons f fs ih =>
    by_cases hf : fs = []
    · subst hf
      simp [joined]
    · rw [List.flatMap_cons, ih hf, joined_cons _ _ hf]
      simp

theorem toStringNative_digit {b : Nat} (hr : 2 ≤ R.radix) (hb : b < R.radix) : toStringNative R b = some [R.getChar b] := by
  unfold toStringNative
  rw [Numeral.toStringLoop, if_neg (by omega)]
  dsimp only
  rw [Nat.div_eq_of_lt hb, if_pos rfl, Nat.mod_eq_of_lt hb]

theorem dataText_wide (hr : 256 ≤ R.radix) {bs : List Nat} (hb : ∀ b ∈ bs, b < 256) :
    dataText R W bs = some (bs.map R.getChar) := by
  induction bs with
  | nil => rfl
  | cons b bs ih =>
    unfold dataText
    have h0 := hb b (List.mem_cons_self ..)
    rw [toStringNative_digit (by omega) (by omega), ih fun x hx => hb x (List.mem_cons_of_mem _ hx), Option.bind_some,
      Option.map_some, if_neg (by omega)]
    rfl

theorem readWide_none (hR : Numeral.Spec.Good R) (hr : 256 ≤ R.radix) (n : Nat) {bs : List Nat} (hb : ∀ b ∈ bs, b < 256)
    (block : List Nat) {st : State} (hst : st.error = false) : readWide R n (bs.map R.getChar) block st = none := by
  induction bs generalizing block with
  | nil =>
    rw [List.map_nil, readWide, if_neg (by simp [hst])]
  | cons b bs ih =>
    have h0 := hb b (List.mem_cons_self ..)
    rw [List.map_cons, readWide, if_neg (by simp [hst])]
    dsimp only
    by_cases hn : n ≤ block.length
    · rw [if_pos hn]
    · rw [if_neg hn, Numeral.from_char_correct hR 8 b (by omega) (by omega)]
      exact ih (fun x hx => hb x (List.mem_cons_of_mem _ hx)) _

/-! ### the words -/

theorem fromText_word {w : List Nat} (h : Word R w) (t : List Nat) (q s : Nat) (fin : List Nat → State → Option (Nat × State)) (st : State) :
    fromText R W I q s fin (w ++ t) st = readUnsigned R W I q s fin (w ++ t) st := by
  obtain ⟨c, cs, rfl, h1, h2⟩ := h
  unfold fromText
  rw [List.cons_append]
  dsimp only
  rw [if_neg h1, if_neg h2]

theorem fromText_neg (t : List Nat) (q s : Nat) (fin : List Nat → State → Option (Nat × State)) (st : State) :
    fromText R W I q s fin (R.negSign :: t) st = (readUnsigned R W I q s fin t st).map fun r => (setSign I r.1, r.2) := by
  unfold fromText
  dsimp only
  rw [if_pos rfl]

theorem readUnsigned_nan (hW : Spec.Good R W) (t : List Nat) (q s : Nat) (fin : List Nat → State → Option (Nat × State)) (st : State) :
    readUnsigned R W I q s fin (W.nan ++ t) st = readNaN R W I q t st := by
  unfold readUnsigned
  have hp : W.nan <+: W.nan ++ t := List.prefix_append _ _
  have h1 : W.nan ++ t ≠ W.snan := fun e => hW.nan_snan (e ▸ hp)
  have h2 : W.nan ++ t ≠ W.qnan := fun e => hW.nan_qnan (e ▸ hp)
  rw [if_neg h1, if_neg h2, if_pos (List.isPrefixOf_iff_prefix.2 hp),
    List.drop_left]

theorem readUnsigned_snan (q s : Nat) (fin : List Nat → State → Option (Nat × State)) (st : State) :
    readUnsigned R W I q s fin W.snan st = some (s, st) := by
  unfold readUnsigned
  rw [if_pos rfl]

theorem readUnsigned_qnan (hW : Spec.Good R W) (q s : Nat) (fin : List Nat → State → Option (Nat × State)) (st : State) :
    readUnsigned R W I q s fin W.qnan st = some (q, st) := by
  unfold readUnsigned
  rw [if_neg (fun e => hW.snan_qnan e.symm), if_pos rfl]

theorem readUnsigned_inf (hW : Spec.Good R W) (q s : Nat) (fin : List Nat → State → Option (Nat × State)) (st : State) :
    readUnsigned R W I q s fin W.inf st = some (infinity I, st) := by
  unfold readUnsigned
  rw [if_neg hW.inf_snan, if_neg hW.inf_qnan, if_neg (fun e => hW.nan_inf (List.isPrefixOf_iff_prefix.1 e)), if_pos rfl]

theorem readNaN_data (q x : Nat) (data : List Nat) (st : State) :
    readNaN R W I q (x :: (data ++ [W.dataEnd])) st =
      (if R.radix < 256 then readSplit R W (I.width / 8) data [] st else readWide R (I.width / 8) data [] st).bind fun r =>
        if r.2.error then some (0, r.2) else if r.1.length < I.width / 8 then none else some (ofBytes r.1, r.2) := by
  unfold readNaN
  have e1 : (x :: (data ++ [W.dataEnd])).getLast? = some W.dataEnd := by
    rw [← List.cons_append, List.getLast?_concat]
  rw [if_pos e1, if_neg (by simp)]
  dsimp only
  rw [List.tail_cons, List.dropLast_concat]

end ELC.Special
