import Verif.Special.Lemmas
/-!
Properties C162, C163 and C164: the text of NaN and of the infinities.

`Numeral.Spec.Good` are the representations of numbers that are in order, `Spec.Good` adds that the words for special values are
different and begin with no sign, and that the separator is not a digit.  `Numeral.Spec.Denotes R t v` says that the digits `t` denote
`v`.  The quiet and the signaling NaN, `q` and `s`, can be any two of the type; `finite` and `fin` are what is done with other numbers
and texts.
-/
namespace ELC.Special
open ELC.Float (Info infinity)
open ELC.Numeral (Rep State)
open ELC.Numeral.Spec (Denotes NotDigit)
open ELC.Special.Spec

variable {R : Rep} {W : Words} {I : Info}

/-- The words and representations of the program are such. -/
theorem builtin_good : Good Numeral.binary defaultWords ∧ Good Numeral.trinary defaultWords ∧ Good Numeral.octal defaultWords ∧
    Good Numeral.decimal defaultWords ∧ Good Numeral.hexadecimal defaultWords ∧ Good Numeral.hexadecimalUpper defaultWords ∧
    Good Numeral.comnDefault defaultWords ∧ Good Numeral.valanlottish valanlottishWords := by
  refine ⟨?_, ?_, ?_, ?_, ?_, ?_, ?_, ?_⟩ <;>
    refine ⟨⟨_, _, rfl, by decide, by decide⟩, ⟨_, _, rfl, by decide, by decide⟩, ⟨_, _, rfl, by decide, by decide⟩,
      ⟨_, _, rfl, by decide, by decide⟩, by decide, by decide, by decide, by decide, by decide, by decide, by unfold NotDigit; decide +kernel⟩

/-- `isNaN` tells the NaNs of IEEE 754: all bits of the exponent are set, and some bit of the fraction. -/
theorem is_nan_correct (d : Nat) :
    (isNaN Float.float32 d = true ↔ d / 2 ^ 23 % 2 ^ 8 = 2 ^ 8 - 1 ∧ d % 2 ^ 23 ≠ 0) ∧
    (isNaN Float.float64 d = true ↔ d / 2 ^ 52 % 2 ^ 11 = 2 ^ 11 - 1 ∧ d % 2 ^ 52 ≠ 0) ∧
    (isNaN Float.float128 d = true ↔ d / 2 ^ 112 % 2 ^ 15 = 2 ^ 15 - 1 ∧ d % 2 ^ 112 ≠ 0) := by
  have h1 : infinity Float.float32 = 0x7F800000 ∧ signBit Float.float32 = 0x80000000 := by decide +kernel
  have h2 : infinity Float.float64 = 0x7FF0000000000000 ∧ signBit Float.float64 = 0x8000000000000000 := by decide +kernel
  have h3 : infinity Float.float128 = 0x7FFF0000000000000000000000000000 ∧
      signBit Float.float128 = 0x80000000000000000000000000000000 := by decide +kernel
  unfold isNaN
  rw [h1.1, h1.2, h2.1, h2.2, h3.1, h3.2]
  refine ⟨?_, ?_, ?_⟩ <;> rw [decide_eq_true_iff] <;> omega

/-- `isInf` tells the infinities of IEEE 754: all bits of the exponent are set, and no bit of the fraction. -/
theorem is_inf_correct (d : Nat) :
    (isInf Float.float32 d = true ↔ d / 2 ^ 23 % 2 ^ 8 = 2 ^ 8 - 1 ∧ d % 2 ^ 23 = 0) ∧
    (isInf Float.float64 d = true ↔ d / 2 ^ 52 % 2 ^ 11 = 2 ^ 11 - 1 ∧ d % 2 ^ 52 = 0) ∧
    (isInf Float.float128 d = true ↔ d / 2 ^ 112 % 2 ^ 15 = 2 ^ 15 - 1 ∧ d % 2 ^ 112 = 0) := by
  have h1 : infinity Float.float32 = 0x7F800000 ∧ signBit Float.float32 = 0x80000000 := by decide +kernel
  have h2 : infinity Float.float64 = 0x7FF0000000000000 ∧ signBit Float.float64 = 0x8000000000000000 := by decide +kernel
  have h3 : infinity Float.float128 = 0x7FFF0000000000000000000000000000 ∧
      signBit Float.float128 = 0x80000000000000000000000000000000 := by decide +kernel
  unfold isInf
  rw [h1.1, h1.2, h2.1, h2.2, h3.1, h3.2]
  refine ⟨?_, ?_, ?_⟩ <;> rw [decide_eq_true_iff] <;> omega

/-! ### C162 -/

/-- C162, which NaNs are read back from their text: all of them if the radix is below 256; otherwise only the quiet and the
signaling one that the type names, with either sign, and for all others reading is undefined. -/
theorem nan_characterised (hR : Numeral.Spec.Good R) (hW : Good R W) (q s : Nat) (finite : Nat → Option (List Nat))
    (fin : List Nat → State → Option (Nat × State)) {d : Nat} (hd : d < 2 ^ I.width) (hn : isNaN I d = true) {st : State}
    (hst : st.error = false) :
    ∃ t, toText R W I q s finite d = some t ∧ fromText R W I q s fin t st =
      if R.radix < 256 ∨ d = s ∨ d = setSign I s ∨ d = q ∨ d = setSign I q then some (d, st) else none := by
  unfold toText
  rw [if_pos hn]
  unfold nanText
  by_cases h1 : d = s
  · rw [if_pos h1]
    refine ⟨_, rfl, ?_⟩
    rw [← List.append_nil W.snan, fromText_word hW.snan, List.append_nil, readUnsigned_snan, if_pos (by tauto), h1]
  rw [if_neg h1]
  by_cases h2 : d = setSign I s
  · rw [if_pos h2]
    refine ⟨_, rfl, ?_⟩
    rw [fromText_neg, readUnsigned_snan, if_pos (by tauto), h2]
    rfl
  rw [if_neg h2]
  by_cases h3 : d = q
  · rw [if_pos h3]
    refine ⟨_, rfl, ?_⟩
    rw [← List.append_nil W.qnan, fromText_word hW.qnan, List.append_nil, readUnsigned_qnan hW, if_pos (by tauto), h3]
  rw [if_neg h3]
  by_cases h4 : d = setSign I q
  · rw [if_pos h4]
    refine ⟨_, rfl, ?_⟩
    rw [fromText_neg, readUnsigned_qnan hW, if_pos (by tauto), h4]
    rfl
  rw [if_neg h4]
  by_cases hr : R.radix < 256
  · obtain ⟨fs, f1, f2⟩ := dataText_split (W := W) hR hr (bytes I d)
    have hlen : fs.length = I.width / 8 := by rw [f1.length_eq, bytes_length]
    have hne : fs ≠ [] := by
      rw [← List.length_pos_iff]
      have := (width_eq I).2
      omega
    rw [f2, Option.map_some, if_pos hr]
    refine ⟨_, rfl, ?_⟩
    have e : (W.nan ++ W.dataStart :: fs.flatMap fun f => f ++ [W.dataSplit]).dropLast ++ [W.dataEnd] =
        W.nan ++ (W.dataStart :: (joined W.dataSplit fs ++ [W.dataEnd])) := by
      rw [flatMap_joined _ hne, ← List.cons_append, ← List.append_assoc, List.dropLast_concat]
      simp
    rw [e, fromText_word hW.nan, readUnsigned_nan hW, readNaN_data, if_pos hr, readSplit_numbers hR hW.split f1 hne hst,
      if_pos (by simp; omega), Option.bind_some]
    dsimp only
    have em : (bytes I d).map (· % 256) = bytes I d := by
      conv_rhs => rw [← List.map_id (bytes I d)]
      apply List.map_congr_left
      intro b hb
      exact Nat.mod_eq_of_lt (bytes_lt hb)
    rw [List.nil_append, em, if_neg (by simp [hst]), bytes_length, if_neg (Nat.lt_irrefl _), ofBytes_bytes hd, if_pos (Or.inl hr)]
  · rw [dataText_wide (by omega) fun b => bytes_lt, Option.map_some, if_neg hr]
    refine ⟨_, rfl, ?_⟩
    rw [List.append_assoc, List.cons_append, fromText_word hW.nan, readUnsigned_nan hW, readNaN_data, if_neg hr,
      readWide_none hR (by omega) _ (fun b => bytes_lt) _ hst, if_neg (by tauto)]
    rfl

/-- C162, the part that holds: in every radix below 256, the text of a NaN is read back as the same bytes. -/
theorem nan_round_trip_partial (hR : Numeral.Spec.Good R) (hr : R.radix < 256) (hW : Good R W) (q s : Nat)
    (finite : Nat → Option (List Nat)) (fin : List Nat → State → Option (Nat × State)) {d : Nat} (hd : d < 2 ^ I.width)
    (hn : isNaN I d = true) {st : State} (hst : st.error = false) :
    ∃ t, toText R W I q s finite d = some t ∧ fromText R W I q s fin t st = some (d, st) := by
  obtain ⟨t, h1, h2⟩ := nan_characterised hR hW q s finite fin hd hn hst
  rw [if_pos (Or.inl hr)] at h2
  exact ⟨t, h1, h2⟩

/-- A NaN of `float` with a payload and a sign, in decimal digits: "NaN[5,0,192,255]". -/
example : toText Numeral.decimal defaultWords Float.float32 0x7FC00000 0x7FA00000 (fun _ => none) 0xFFC00005 =
      some [0x4E, 0x61, 0x4E, 0x5B, 0x35, 0x2C, 0x30, 0x2C, 0x31, 0x39, 0x32, 0x2C, 0x32, 0x35, 0x35, 0x5D] ∧
    isNaN Float.float32 0xFFC00005 = true := by decide +kernel

/-- C162 is false of the program: in the digits of `valanlottish`, no NaN but the named ones can be read back. -/
theorem nan_round_trip_refuted (q s : Nat) (finite : Nat → Option (List Nat)) (fin : List Nat → State → Option (Nat × State))
    {d : Nat} (hd : d < 2 ^ I.width) (hn : isNaN I d = true)
    (hne : d ≠ s ∧ d ≠ setSign I s ∧ d ≠ q ∧ d ≠ setSign I q) :
    ∃ t, toText Numeral.valanlottish valanlottishWords I q s finite d = some t ∧
      fromText Numeral.valanlottish valanlottishWords I q s fin t {} = none := by
  obtain ⟨t, h1, h2⟩ := nan_characterised Numeral.builtin_usable.2.2.2.2.1.good builtin_good.2.2.2.2.2.2.2 q s finite fin hd hn
    (st := {}) rfl
  rw [if_neg (by rintro (h | h | h | h | h); · exact absurd h (by decide)
                 all_goals tauto)] at h2
  exact ⟨t, h1, h2⟩

example : isNaN Float.float64 0x7FF8000000000001 = true ∧ 0x7FF8000000000001 < 2 ^ Float.float64.width := by decide +kernel

/-! ### C163 -/

/-- C163: the infinities are read back from their texts, which differ in the sign only. -/
theorem inf_round_trip (hW : Good R W) (q s : Nat) (finite : Nat → Option (List Nat))
    (fin : List Nat → State → Option (Nat × State)) {d : Nat} (hd : d < 2 ^ I.width) (hi : isInf I d = true) (st : State) :
    ∃ t, toText R W I q s finite d = some t ∧ fromText R W I q s fin t st = some (d, st) ∧
      (t = W.inf ↔ d < signBit I) ∧ (t = R.negSign :: W.inf ↔ signBit I ≤ d) := by
  have hw : 2 ^ I.width = 2 * signBit I := by
    unfold signBit
    have := width_eq I
    rw [← pow_succ']
    congr 1
    omega
  have hi' : d % signBit I = infinity I := by simpa [isInf] using hi
  have hnan : isNaN I d = false := by simp [isNaN, hi']
  have hlen : W.inf ≠ R.negSign :: W.inf := by
    intro e
    have := congrArg List.length e
    simp at this
  unfold toText
  rw [if_neg (by simp [hnan]), if_pos hi]
  refine ⟨_, rfl, ?_⟩
  unfold infText
  by_cases hp : d < signBit I
  · rw [Nat.mod_eq_of_lt hp] at hi'
    rw [if_pos hi']
    refine ⟨?_, by simp [hp], ?_⟩
    · conv_lhs => rw [← List.append_nil W.inf]
      rw [fromText_word hW.inf, List.append_nil, readUnsigned_inf hW, hi']
    · constructor
      · intro e
        exact absurd e hlen
      · omega
  · have e : d = setSign I d := by
      unfold setSign
      rw [Nat.mod_eq_sub_mod (by omega), Nat.mod_eq_of_lt (by omega)]
      omega
    have hlt : infinity I < signBit I := by
      rw [← hi']
      exact Nat.mod_lt _ (by unfold signBit; exact Nat.two_pow_pos _)
    rw [if_neg (by omega)]
    refine ⟨?_, ?_, by simp; omega⟩
    · rw [fromText_neg, readUnsigned_inf hW, Option.map_some]
      dsimp only
      have : setSign I (infinity I) = setSign I d := by
        unfold setSign
        rw [hi', Nat.mod_eq_of_lt hlt]
      rw [this, ← e]
    · constructor
      · intro h
        exact absurd h.symm hlen
      · intro h
        omega

example : toText Numeral.decimal defaultWords Float.float64 0x7FF8000000000000 0x7FF4000000000000 (fun _ => none) 0xFFF0000000000000 =
    some [0x2D, 0x49, 0x6E, 0x66, 0x69, 0x6E, 0x69, 0x74, 0x79] := by decide +kernel

/-! ### C164 -/

/-- Every text is a list of fields with the separator between them; the fields before the first one that is not a number denote
numbers. -/
theorem nan_fields (hR : Numeral.Spec.Good R) (c : Nat) (t : List Nat) : ∃ fs vs, List.Forall₂ (Denotes R) fs vs ∧
    ((t = joined c fs ∧ fs ≠ []) ∨
      ∃ bad rest, t = joined c (fs ++ bad :: rest) ∧ c ∉ bad ∧ ∃ x ∈ bad, R.isValid x = false) := by
  obtain ⟨n, hn⟩ : ∃ n, t.length ≤ n := ⟨_, Nat.le_refl _⟩
  have field : ∀ f : List Nat, (∃ x ∈ f, R.isValid x = false) ∨ ∃ v, Denotes R f v := by
    intro f
    rcases Numeral.digits_or_invalid hR f with ⟨ds, e, h⟩ | h
    · exact Or.inr ⟨_, ds, e, h, rfl⟩
    · exact Or.inl h
  induction n generalizing t with
  | zero =>
    have : t = [] := List.length_eq_zero_iff.1 (by omega)
    subst this
    exact ⟨[[]], [0], .cons ⟨[], rfl, by simp, rfl⟩ .nil, Or.inl ⟨rfl, by simp⟩⟩
  | succ n ih =>
    by_cases hc : c ∈ t
    · obtain ⟨f, tl, e, hf⟩ := List.eq_append_cons_of_mem hc
      obtain ⟨fs, vs, g1, g2⟩ := ih tl (by rw [e] at hn; simp at hn; omega)
      rcases field f with h | ⟨v, h⟩
      · rcases g2 with ⟨g3, g4⟩ | ⟨bad, rest, g3, _⟩
        · exact ⟨[], [], .nil, Or.inr ⟨f, fs, by rw [e, g3, List.nil_append, joined_cons _ _ g4], hf, h⟩⟩
        · exact ⟨[], [], .nil, Or.inr ⟨f, fs ++ bad :: rest, by rw [e, g3, List.nil_append, joined_cons _ _ (by simp)], hf, h⟩⟩
      · rcases g2 with ⟨g3, g4⟩ | ⟨bad, rest, g3, g5⟩
        · exact ⟨f :: fs, v :: vs, .cons h g1, Or.inl ⟨by rw [e, g3, joined_cons _ _ g4], by simp⟩⟩
        · exact ⟨f :: fs, v :: vs, .cons h g1, Or.inr ⟨bad, rest, by rw [e, g3, List.cons_append, joined_cons _ _ (by simp)], g5⟩⟩
    · rcases field t with h | ⟨v, h⟩
      · exact ⟨[], [], .nil, Or.inr ⟨t, [], rfl, hc, h⟩⟩
      · exact ⟨[t], [v], .cons h .nil, Or.inl ⟨rfl, by simp⟩⟩

/-- C164, what is read from a text that begins with the word for NaN, in a radix below 256.  If it does not end with the closing
sign, or is only that sign: the quiet NaN whatever stands there, or undefined. -/
theorem nan_text_bare (hW : Good R W) (q s : Nat) (fin : List Nat → State → Option (Nat × State)) (t : List Nat) (st : State) :
    (t.getLast? ≠ some W.dataEnd → fromText R W I q s fin (W.nan ++ t) st = some (q, st)) ∧
    (t = [W.dataEnd] → fromText R W I q s fin (W.nan ++ t) st = none) := by
  rw [fromText_word hW.nan, readUnsigned_nan hW]
  unfold readNaN
  constructor
  · intro h
    rw [if_neg h]
  · rintro rfl
    rw [if_pos (show [W.dataEnd].getLast? = some W.dataEnd from rfl), if_pos (show [W.dataEnd].length < 2 from Nat.lt_succ_self 1)]

/-- C164: a list of numbers between any character and the closing sign gives the bytes of these numbers modulo 256 if it has as
many as the type has bytes; otherwise reading is undefined. -/
theorem nan_text_numbers (hR : Numeral.Spec.Good R) (hr : R.radix < 256) (hW : Good R W) (q s : Nat)
    (fin : List Nat → State → Option (Nat × State)) (x : Nat) {fs : List (List Nat)} {vs : List Nat}
    (h : List.Forall₂ (Denotes R) fs vs) (hne : fs ≠ []) {st : State} (hst : st.error = false) :
    fromText R W I q s fin (W.nan ++ x :: (joined W.dataSplit fs ++ [W.dataEnd])) st =
      if fs.length = I.width / 8 then some (ofBytes (vs.map (· % 256)), st) else none := by
  have hl := h.length_eq
  rw [fromText_word hW.nan, readUnsigned_nan hW, readNaN_data, if_pos hr, readSplit_numbers hR hW.split h hne hst]
  by_cases h1 : fs.length ≤ I.width / 8
  · rw [if_pos (by simpa using h1), Option.bind_some]
    dsimp only
    rw [if_neg (by simp [hst]), List.nil_append, List.length_map]
    by_cases h2 : fs.length = I.width / 8
    · rw [if_neg (by omega), if_pos h2]
    · rw [if_pos (by omega), if_neg h2]
  · rw [if_neg (by simpa using h1), if_neg (by omega)]
    rfl

/-- C164: an error is reported exactly if something that is not a number comes before as many numbers as the type has bytes;
otherwise reading is undefined. -/
theorem nan_text_bad (hR : Numeral.Spec.Good R) (hr : R.radix < 256) (hW : Good R W) (q s : Nat)
    (fin : List Nat → State → Option (Nat × State)) (x : Nat) {fs : List (List Nat)} {vs : List Nat}
    (h : List.Forall₂ (Denotes R) fs vs) {bad : List Nat} (hb : ∃ c ∈ bad, R.isValid c = false) (hbs : W.dataSplit ∉ bad)
    (rest : List (List Nat)) {st : State} (hst : st.error = false) :
    fromText R W I q s fin (W.nan ++ x :: (joined W.dataSplit (fs ++ bad :: rest) ++ [W.dataEnd])) st =
      if fs.length < I.width / 8 then some (0, { st with error := true, invalidChar := true }) else none := by
  obtain ⟨b1, b2⟩ := readSplit_bad (W := W) (n := I.width / 8) hR hW.split h hb hbs rest (block := []) hst
  rw [fromText_word hW.nan, readUnsigned_nan hW, readNaN_data, if_pos hr]
  by_cases h1 : fs.length < I.width / 8
  · obtain ⟨l, e⟩ := b1 (by simpa using h1)
    rw [e, if_pos h1]
    rfl
  · rw [b2 (by simpa using h1), if_neg h1]
    rfl

/-- C164 is false of the program, for `double` in decimal digits: "NaNny" is read as NaN without an error, and
"NaN[0,0,0,0,0,0,240,63]" as 1; "NaN]", "NaN[1,2]" and "NaN[0,0,0,0,0,0,0,0,0]" are undefined. -/
theorem nan_text_refuted (q s : Nat) (fin : List Nat → State → Option (Nat × State)) :
    fromText Numeral.decimal defaultWords Float.float64 q s fin [0x4E, 0x61, 0x4E, 0x6E, 0x79] {} = some (q, {}) ∧
    fromText Numeral.decimal defaultWords Float.float64 q s fin
      [0x4E, 0x61, 0x4E, 0x5B, 0x30, 0x2C, 0x30, 0x2C, 0x30, 0x2C, 0x30, 0x2C, 0x30, 0x2C, 0x30, 0x2C, 0x32, 0x34, 0x30, 0x2C, 0x36, 0x33,
        0x5D] {} = some (0x3FF0000000000000, {}) ∧
    fromText Numeral.decimal defaultWords Float.float64 q s fin [0x4E, 0x61, 0x4E, 0x5D] {} = none ∧
    fromText Numeral.decimal defaultWords Float.float64 q s fin [0x4E, 0x61, 0x4E, 0x5B, 0x31, 0x2C, 0x32, 0x5D] {} = none ∧
    fromText Numeral.decimal defaultWords Float.float64 q s fin
      [0x4E, 0x61, 0x4E, 0x5B, 0x30, 0x2C, 0x30, 0x2C, 0x30, 0x2C, 0x30, 0x2C, 0x30, 0x2C, 0x30, 0x2C, 0x30, 0x2C, 0x30, 0x2C, 0x30,
        0x5D] {} = none := by
  have hW : Good Numeral.decimal defaultWords := builtin_good.2.2.2.1
  have hR : Numeral.Spec.Good Numeral.decimal := Numeral.builtin_usable.2.2.2.1.good
  have z : Denotes Numeral.decimal [0x30] 0 := ⟨[0], rfl, by decide, rfl⟩
  refine ⟨(nan_text_bare hW q s fin [0x6E, 0x79] {}).1 (by decide), ?_, (nan_text_bare hW q s fin [0x5D] {}).2 rfl, ?_, ?_⟩
  · have := nan_text_numbers (I := Float.float64) hR (by decide) hW q s fin 0x5B (fs := [[0x30], [0x30], [0x30], [0x30], [0x30], [0x30], [0x32, 0x34, 0x30], [0x36, 0x33]])
      (vs := [0, 0, 0, 0, 0, 0, 240, 63])
      (.cons z <| .cons z <| .cons z <| .cons z <| .cons z <| .cons z <| .cons ⟨[2, 4, 0], rfl, by decide, rfl⟩ <|
        .cons ⟨[6, 3], rfl, by decide, rfl⟩ .nil) (by simp) (st := {}) rfl
    rw [if_pos (by decide +kernel)] at this
    exact this
  · have := nan_text_numbers (I := Float.float64) hR (by decide) hW q s fin 0x5B (fs := [[0x31], [0x32]]) (vs := [1, 2])
      (.cons ⟨[1], rfl, by decide, rfl⟩ <| .cons ⟨[2], rfl, by decide, rfl⟩ .nil) (by simp) (st := {}) rfl
    rw [if_neg (by decide +kernel)] at this
    exact this
  · have := nan_text_numbers (I := Float.float64) hR (by decide) hW q s fin 0x5B (fs := [[0x30], [0x30], [0x30], [0x30], [0x30], [0x30], [0x30], [0x30], [0x30]])
      (vs := [0, 0, 0, 0, 0, 0, 0, 0, 0])
      (.cons z <| .cons z <| .cons z <| .cons z <| .cons z <| .cons z <| .cons z <| .cons z <| .cons z .nil) (by simp) (st := {}) rfl
    rw [if_neg (by decide +kernel)] at this
    exact this

end ELC.Special
