import Verif.Stream.Lemmas
import Verif.Stream.Conv

/-! Properties C103–C107: text streams. -/
namespace ELC.Stream
open Spec

/-! ### Writing through a conversion -/

/-- C103: what is written through a converting stream arrives as its encoding.  A character that
cannot be encoded ends the program, and what came before it has arrived; no buffer is too small. -/
theorem conv_write (k : Code) (s : List Nat) : ∀ out,
    ((∀ c ∈ s, Encodable k c) → convWrite k out s = (out ++ encodeText k s, .ok ())) ∧
    (∀ a c b, s = a ++ c :: b → (∀ x ∈ a, Encodable k x) → ¬ Encodable k c →
      convWrite k out s = (out ++ encodeText k a, .dies)) := by
  induction s with
  | nil =>
    intro out
    refine ⟨fun _ => by simp [convWrite, encodeText], ?_⟩
    intro a c b h
    simp at h
  | cons d r ih =>
    intro out
    by_cases hd : Encodable k d
    · have e : convWrite k out (d :: r) = convWrite k (out ++ encode k d) r := by
        rw [convWrite, utf32ToAuto_ok hd]
        have := encode_length_le k d
        simp only
        rw [if_neg (by omega), if_neg (by simp)]
      refine ⟨?_, ?_⟩
      · intro h
        rw [e, (ih _).1 (fun c hc => h c (List.mem_cons_of_mem _ hc)), encodeText_cons,
          List.append_assoc]
      · intro a c b h ha hc
        match a, h, ha with
        | [], h, _ =>
          simp only [List.nil_append, List.cons.injEq] at h
          exact absurd (h.1 ▸ hd) hc
        | a0 :: a', h, ha =>
          simp only [List.cons_append, List.cons.injEq] at h
          obtain ⟨rfl, h⟩ := h
          rw [e, (ih _).2 a' c b h (fun x hx => ha x (List.mem_cons_of_mem _ hx)) hc,
            encodeText_cons, List.append_assoc]
    · obtain ⟨h1, h2⟩ := utf32ToAuto_bad hd
      have e : convWrite k out (d :: r) = (out, .dies) := by
        rw [convWrite]
        simp only [h1, h2]
        rw [if_neg (by simp), if_pos (by simp)]
      refine ⟨fun h => absurd (h d (by simp)) hd, ?_⟩
      intro a c b h ha hc
      match a, h, ha with
      | [], _, _ => rw [e]; simp [encodeText]
      | a0 :: a', h, ha =>
        simp only [List.cons_append, List.cons.injEq] at h
        obtain ⟨rfl, h⟩ := h
        exact absurd (ha d (by simp)) hd

example : convWrite .utf8 [] [0x61, 0x20ac] = ([0x61, 0xe2, 0x82, 0xac], .ok ()) := by decide +kernel
example : convWrite .utf16 [] [0x61, 0x110000, 0x62] = ([0x61], .dies) := by decide +kernel

/-- C103: a text written and read back by a conversion of the whole text is the same. -/
theorem conv_write_lossless (k : Code) (s : List Nat)
    (hs : ∀ c ∈ s, k = .utf32 ∨ Utf.Spec.IsScalar c) :
    (convWrite k [] s).2 = .ok () ∧
    (autoToUtf32 k (convWrite k [] s).1) = ⟨true, (convWrite k [] s).1.length, s⟩ := by
  have h : ∀ c ∈ s, Encodable k c := fun c hc => (hs c hc).imp id fun h => h.1
  rw [(conv_write k s []).1 h]
  refine ⟨rfl, ?_⟩
  rw [List.nil_append]
  exact autoToUtf32_text k s hs

example : ∀ c ∈ [0x61, 0x1f600], Code.utf16 = .utf32 ∨ Utf.Spec.IsScalar c := by
  unfold Utf.Spec.IsScalar; decide

/-! ### Reading through a conversion -/

/-- C104: whatever the stream below contains and however it delivers it, characters that come out of a
read are what was there: they are no more than asked for, and their encoding with what is left of the
stream below is what there was before. -/
theorem conv_read_sound (k : Code) (size : Nat) (n : Nat) : ∀ ks got src,
    src.length ≤ n → (∀ u ∈ src, IsUnit k u) → got.length ≤ size → ∀ got' rest,
    convRead k size ks got src = .ok (got', rest) →
    got'.length ≤ size ∧ ∃ s, got' = got ++ s ∧ src = encodeText k s ++ rest := by
  induction n with
  | zero =>
    intro ks got src hn hu hg got' rest h
    have hsrc : src = [] := List.length_eq_zero_iff.1 (by omega)
    subst hsrc
    rw [convRead_empty (by simp)] at h
    injection h with h; injection h with h1 h2
    subst h1; subst h2
    exact ⟨hg, [], by simp, by simp [encodeText]⟩
  | succ n ih =>
    intro ks got src hn hu hg got' rest h
    by_cases hs : size ≤ got.length
    · rw [convRead_done hs] at h
      injection h with h; injection h with h1 h2
      subst h1; subst h2
      exact ⟨hg, [], by simp, by simp [encodeText]⟩
    · by_cases hw : src.take (min (ks.headD (bufSize k)) (bufSize k)) = []
      · rw [convRead_empty hw] at h
        injection h with h; injection h with h1 h2
        subst h1; subst h2
        exact ⟨hg, [], by simp, by simp [encodeText]⟩
      · generalize hm : min (ks.headD (bufSize k)) (bufSize k) = m at hw
        obtain ⟨s, t, h1, h2, -⟩ := autoToUtf32_sound k (src.take m)
          (fun u hu' => hu u (List.mem_of_mem_take hu'))
        match t, h1, h2 with
        | _ :: _, h1, h2 =>
          rw [convRead_dies (by omega) hm.symm hw (by rw [h2]; rfl)] at h
          cases h
        | [], h1, h2 =>
          rw [List.append_nil] at h1
          have e : src = src.take m ++ src.drop m := (List.take_append_drop m src).symm
          have hlen : (src.take m).length ≠ 0 := fun h0 => hw (List.length_eq_zero_iff.1 h0)
          rw [e, convRead_step (by omega) hm.symm (by rw [← e]) (by rw [← e]) hw
            (by rw [h2, ← h1]; rfl)] at h
          by_cases ho : size < got.length + s.length
          · rw [if_pos ho] at h; cases h
          · rw [if_neg ho] at h
            have hl2 : (src.drop m).length ≤ n := by
              have := congrArg List.length e
              rw [List.length_append] at this
              omega
            obtain ⟨g1, s', g2, g3⟩ := ih ks.tail (got ++ s) (src.drop m) hl2
              (fun u hu' => hu u (List.mem_of_mem_drop hu'))
              (by rw [List.length_append]; omega) got' rest h
            refine ⟨g1, s ++ s', by rw [g2, List.append_assoc], ?_⟩
            rw [encodeText_append, List.append_assoc, ← g3, ← h1]
            exact e

/-- C104 is false: reading one character where there are more writes past the end of what the reader
provided. -/
theorem conv_get_refuted : convGet .utf8 [] (encodeText .utf8 [0x61, 0x62]) = .overflow ∧
    convGet .utf16 [] (encodeText .utf16 [0x61, 0x62]) = .overflow := by decide +kernel

/-- C104 is false: a character that does not end with the four bytes read at a time ends the
program. -/
theorem conv_get_split_refuted :
    convGet .utf8 [] (encodeText .utf8 [0x61, 0x62, 0x63, 0xe9]) = .dies ∧
    convGet .utf16 [] (encodeText .utf16 [0x61, 0x1f600]) = .dies ∧
    convRead .utf8 4 [] [] (encodeText .utf8 [0x61, 0x62, 0x63, 0xe9]) = .dies := by decide +kernel

/-- C104, what does hold: in a text whose characters all fill the window, as in UTF-32, a read delivers
exactly what was asked for, or all there is. -/
theorem conv_read_partial (k : Code) (size : Nat) (s : List Nat) : ∀ got,
    (∀ c ∈ s, (k = .utf32 ∨ Utf.Spec.IsScalar c) ∧ (encode k c).length = bufSize k) →
    got.length ≤ size →
    convRead k size [] got (encodeText k s) =
      .ok (got ++ s.take (size - got.length), encodeText k (s.drop (size - got.length))) := by
  induction s with
  | nil =>
    intro got _ _
    rw [convRead_empty (by simp [encodeText])]
    simp
  | cons c r ih =>
    intro got hs hg
    by_cases hd : size ≤ got.length
    · have : size - got.length = 0 := by omega
      rw [convRead_done hd, this]; simp
    · obtain ⟨h1, h2⟩ := hs c (by simp)
      have e : autoToUtf32 k (encode k c) = ⟨true, (encode k c).length, [c]⟩ := by
        have := autoToUtf32_text k [c] (by simpa using h1)
        simpa [encodeText] using this
      rw [encodeText_cons, convRead_step (n := bufSize k) (by omega) (by simp)
        (by rw [← h2, List.take_left]) (by rw [← h2, List.drop_left]) (encode_ne_nil k c) e,
        if_neg (by simp; omega), List.tail_nil,
        ih _ (fun x hx => hs x (List.mem_cons_of_mem _ hx)) (by simp; omega)]
      obtain ⟨m, hm⟩ : ∃ m, size - got.length = m + 1 := ⟨size - got.length - 1, by omega⟩
      have hm' : size - (got ++ [c]).length = m := by simp; omega
      rw [hm, hm', List.take_succ_cons, List.drop_succ_cons, List.append_assoc]
      rfl

example : ∀ c ∈ [0x1f600, 0x1f601], (Code.utf8 = .utf32 ∨ Utf.Spec.IsScalar c) ∧
    (encode .utf8 c).length = bufSize .utf8 := by
  unfold Utf.Spec.IsScalar; decide

/-- C104, what does hold: a stream below that delivers one byte at a time, with ASCII only. -/
theorem conv_read_single_partial (size : Nat) (s : List Nat) : ∀ n got,
    (∀ c ∈ s, c < 0x80) → got.length ≤ size → size ≤ got.length + n →
    convRead .utf8 size (List.replicate n 1) got s =
      .ok (got ++ s.take (size - got.length), s.drop (size - got.length)) := by
  induction s with
  | nil =>
    intro n got _ _ _
    rw [convRead_empty (by simp)]
    simp
  | cons c r ih =>
    intro n got hs hg hn
    by_cases hd : size ≤ got.length
    · have : size - got.length = 0 := by omega
      rw [convRead_done hd, this]; simp
    · obtain ⟨n', rfl⟩ : ∃ n', n = n' + 1 := ⟨n - 1, by omega⟩
      have hc := hs c (by simp)
      have e : autoToUtf32 .utf8 [c] = ⟨true, [c].length, [c]⟩ := by
        show Utf.utf8ToUtf32 [c] = _
        rw [Utf.utf8ToUtf32, Utf.utf8ToUtf32Loop]
        have hdec : Utf.decodeUtf8 c [] = some (c, 1) := by unfold Utf.decodeUtf8; rw [if_pos hc]
        split
        · next h' => rw [hdec] at h'; cases h'
        · next h' =>
          rw [hdec] at h'; simp only [Option.some.injEq, Prod.mk.injEq] at h'
          obtain ⟨rfl, rfl⟩ := h'
          simp [Utf.utf8ToUtf32Loop]
      have e0 : c :: r = [c] ++ r := rfl
      rw [e0, convRead_step (n := 1) (by omega) (by simp [List.replicate_succ, bufSize]) rfl rfl
        (by simp) e, if_neg (by simp; omega), List.replicate_succ, List.tail_cons,
        ih n' _ (fun x hx => hs x (List.mem_cons_of_mem _ hx)) (by simp; omega) (by simp; omega)]
      obtain ⟨m, hm⟩ : ∃ m, size - got.length = m + 1 := ⟨size - got.length - 1, by omega⟩
      have hm' : size - (got ++ [c]).length = m := by simp; omega
      rw [hm, hm', ← e0, List.take_succ_cons, List.drop_succ_cons, List.append_assoc]
      rfl

example : convRead .utf8 2 [1, 1] [] [0x61, 0x62, 0x63] = .ok ([0x61, 0x62], [0x63]) := by
  decide +kernel

/-- C104, exactly: getting the next character of a text works if the character fills the window or
is the last one, and in no other case. -/
theorem conv_get_characterised (k : Code) (c : Nat) (s : List Nat)
    (hs : ∀ x ∈ c :: s, k = .utf32 ∨ Utf.Spec.IsScalar x) :
    (((encode k c).length = bufSize k ∨ s = []) →
      convGet k [] (encodeText k (c :: s)) = .ok (c, encodeText k s)) ∧
    (¬ ((encode k c).length = bufSize k ∨ s = []) →
      convGet k [] (encodeText k (c :: s)) = .overflow ∨
      convGet k [] (encodeText k (c :: s)) = .dies) := by
  have hc := hs c (by simp)
  have e : autoToUtf32 k (encode k c) = ⟨true, (encode k c).length, [c]⟩ := by
    have := autoToUtf32_text k [c] (by simpa using hc)
    simpa [encodeText] using this
  have hle := encode_length_le k c
  constructor
  · intro h
    have ht : (encode k c ++ encodeText k s).take (bufSize k) = encode k c ∧
        (encode k c ++ encodeText k s).drop (bufSize k) = encodeText k s := by
      rcases h with h | h
      · rw [← h]; simp
      · subst h
        simp only [encodeText, List.flatMap_nil, List.append_nil]
        exact ⟨List.take_of_length_le hle, List.drop_of_length_le hle⟩
    have : convRead k 1 [] [] (encodeText k (c :: s)) = .ok ([c], encodeText k s) := by
      rw [encodeText_cons, convRead_step (n := bufSize k) (by simp) (by simp) ht.1 ht.2
        (encode_ne_nil k c) e, if_neg (by simp), convRead_done (by simp)]
      rfl
    rw [convGet, this]
    rfl
  · intro h
    rw [not_or] at h
    obtain ⟨h1, h2⟩ := h
    match s, h2, hs with
    | d :: s', _, hs =>
      have hk : k ≠ .utf32 := by rintro rfl; exact h1 rfl
      have hunit : ∀ u ∈ encodeText k (c :: d :: s'), IsUnit k u := encodeText_units k _ hs
      generalize hT : encodeText k (c :: d :: s') = T at hunit
      have hlen : (encode k c).length < (T.take (bufSize k)).length := by
        have hd : 0 < (encode k d).length := List.length_pos_iff.2 (encode_ne_nil k d)
        rw [List.length_take, ← hT, encodeText_cons, encodeText_cons]
        simp only [List.length_append]
        omega
      have hne : T.take (bufSize k) ≠ [] := fun h => by rw [h] at hlen; simp at hlen
      obtain ⟨t, rest, g1, g2, g3⟩ := autoToUtf32_sound k (T.take (bufSize k))
        (fun u hu => hunit u (List.mem_of_mem_take hu))
      match rest, g1, g2 with
      | _ :: _, _, g2 =>
        right
        rw [convGet, convRead_dies (n := bufSize k) (by simp) (by simp) hne (by rw [g2]; rfl)]
      | [], g1, g2 =>
        left
        rw [List.append_nil] at g1
        have hover : 1 < t.length := by
          match t, g1, g3 with
          | [], g1, _ => exact absurd g1 hne
          | [x], g1, g3 =>
            exfalso
            have hx : encode k x = T.take (bufSize k) := by simpa [encodeText] using g1.symm
            obtain ⟨q, hq⟩ : ∃ q, T.take (bufSize k) = encode k c ++ q := by
              refine ⟨(encodeText k (d :: s')).take (bufSize k - (encode k c).length), ?_⟩
              rw [← hT, encodeText_cons, List.take_append, List.take_of_length_le hle]
            have hxc : x = c := encode_prefix hk (g3 x (by simp)) hc (hx.trans hq)
            subst hxc
            rw [← hx] at hlen
            omega
          | _ :: _ :: _, _, _ => simp
        have e2 : T = T.take (bufSize k) ++ T.drop (bufSize k) := (List.take_append_drop _ T).symm
        have : convRead k 1 [] [] T = .overflow := by
          rw [e2, convRead_step (n := bufSize k) (out := t) (by simp) (by simp) (by rw [← e2])
            (by rw [← e2]) hne (by rw [g2, ← g1]; rfl), if_pos (by simpa using hover)]
        rw [convGet, this]

/-! ### Words -/

/-- C105: reading strings one after the other from a stream that ends gives the words of its text in
order, and empty strings after the last. -/
theorem read_words (n : Nat) : ∀ t, readWords n ⟨t, true⟩ =
    some ((words t).take n ++ List.replicate (n - (words t).length) []) := by
  induction n with
  | zero => intro t; simp [readWords]
  | succ n ih =>
    intro t
    have e : readWords (n + 1) ⟨t, true⟩ =
        some ((t.dropWhile sp).takeWhile (fun c => !sp c) ::
          ((words ((t.dropWhile sp).dropWhile (fun c => !sp c))).take n ++
            List.replicate (n - (words ((t.dropWhile sp).dropWhile (fun c => !sp c))).length) [])) := by
      rw [readWords, readWord_eq]
      show (do
        let ws ← readWords n ⟨(t.dropWhile sp).dropWhile (fun c => !sp c), true⟩
        return (t.dropWhile sp).takeWhile (fun c => !sp c) :: ws) = _
      rw [ih]
      rfl
    rw [e, words_rec t]
    by_cases h : (t.dropWhile sp).takeWhile (fun c => !sp c) = []
    · rw [if_pos h, h]
      have h0 : t.dropWhile sp = [] := by
        match hd : t.dropWhile sp, h with
        | [], _ => rfl
        | c :: r, h =>
          have hc : sp c = false := dropWhile_head hd
          simp [hc] at h
      rw [h0]
      simp [words, List.replicate_succ]
    · rw [if_neg h]
      simp

example : words [0x20, 0x61, 0x62, 0x0a, 0x63] = [[0x61, 0x62], [0x63]] := by decide +kernel

/-- C105: what is left after reading a string are the remaining characters. -/
theorem read_word_rest (t : List Nat) : ∃ blanks w rest, t = blanks ++ w ++ rest ∧
    readWord ⟨t, true⟩ = some (w, ⟨rest, true⟩) ∧ (∀ c ∈ blanks, IsSpace c) ∧ (∀ c ∈ w, ¬ IsSpace c) ∧
    (∀ c r, rest = c :: r → IsSpace c) ∧ (w = [] → rest = []) := by
  refine ⟨t.takeWhile sp, (t.dropWhile sp).takeWhile (fun c => !sp c),
    (t.dropWhile sp).dropWhile (fun c => !sp c), ?_, readWord_eq t, ?_, ?_, ?_, ?_⟩
  · rw [List.append_assoc, List.takeWhile_append_dropWhile, List.takeWhile_append_dropWhile]
  · intro c hc
    have := List.all_eq_true.1 (List.all_takeWhile (p := sp) (l := t)) c hc
    exact of_decide_eq_true this
  · intro c hc
    have := List.all_eq_true.1 (List.all_takeWhile (p := fun c => !sp c) (l := t.dropWhile sp)) c hc
    have h2 : sp c = false := by simpa using this
    exact of_decide_eq_false h2
  · intro c r h
    have : sp c = true := by simpa using dropWhile_head h
    exact of_decide_eq_true this
  · intro h
    match hd : t.dropWhile sp, h with
    | [], _ => rfl
    | c :: r, h =>
      have hc : sp c = false := dropWhile_head hd
      simp [hc] at h

/-- C105 is false of the stream of nothing, which never says that it is at its end: reading a string
from it does not come to an end. -/
theorem read_null_refuted : readWord ⟨[], false⟩ = none := by decide +kernel

/-- C105, exactly: from a stream that never says that it is at its end a string is read if white space
follows the first word. -/
theorem read_open_characterised (t : List Nat) :
    readWord ⟨t, false⟩ = none ↔ ∀ c ∈ t.dropWhile (fun c => decide (IsSpace c)), ¬ IsSpace c := by
  have e : readWord ⟨t, false⟩ = takeWord false [] (t.dropWhile sp) := by
    rw [readWord, skipSpace_eq]; rfl
  rw [e, takeWord_open]
  show _ ↔ ∀ c ∈ t.dropWhile sp, ¬ IsSpace c
  by_cases h : (t.dropWhile sp).any sp = true
  · rw [if_pos h]
    obtain ⟨c, hc, hsp⟩ := List.any_eq_true.1 h
    constructor
    · intro h'; cases h'
    · intro h'; exact absurd (of_decide_eq_true hsp) (h' c hc)
  · rw [if_neg h]
    refine ⟨fun _ c hc hsp => h (List.any_eq_true.2 ⟨c, hc, decide_eq_true hsp⟩), fun _ => rfl⟩

/-! ### Lines -/

/-- C106, exactly: `getline` leaves out white space, empty lines among it, then takes what is there up
to the next line end, and takes the line end; after a lone carriage return the last character of the
text is lost. -/
theorem getline_characterised (t : List Nat) : ∃ blanks l e rest, t = blanks ++ l ++ e ++ rest ∧
    getline false ⟨t, true⟩ = some (l, ⟨rest, true⟩) ∧ (∀ c ∈ blanks, IsSpace c) ∧
    (∀ c r, l = c :: r → ¬ IsSpace c) ∧ 0x0a ∉ l ∧ 0x0d ∉ l ∧
    ((e = [] ∧ rest = []) ∨ (∃ n : Newline, e = n.text) ∨
      (∃ c, e = [0x0d, c] ∧ c ≠ 0x0a ∧ rest = [])) := by
  generalize hu : (t.dropWhile sp).dropWhile (fun c => !nl c) = u
  have hnl : ∀ c r, u = c :: r → nl c = true := fun c r h => by
    simpa using dropWhile_head (hu.trans h)
  have hg : getline false ⟨t, true⟩ =
      some ((t.dropWhile sp).takeWhile (fun c => !nl c), ⟨afterEnd false u, true⟩) := by
    rw [getline_eq, hu, readEndline_eq false u hnl]; rfl
  have ht : t = t.takeWhile sp ++ (t.dropWhile sp).takeWhile (fun c => !nl c) ++ u := by
    rw [List.append_assoc, ← hu, List.takeWhile_append_dropWhile, List.takeWhile_append_dropWhile]
  have hl : ∀ c ∈ (t.dropWhile sp).takeWhile (fun c => !nl c), nl c = false := by
    intro c hc
    have := List.all_eq_true.1 (List.all_takeWhile (p := fun c => !nl c) (l := t.dropWhile sp)) c hc
    simpa using this
  have key : ∃ e rest, u = e ++ rest ∧ afterEnd false u = rest ∧
      ((e = [] ∧ rest = []) ∨ (∃ n : Newline, e = n.text) ∨
        (∃ c, e = [0x0d, c] ∧ c ≠ 0x0a ∧ rest = [])) := by
    match u, hnl with
    | [], _ => exact ⟨[], [], rfl, rfl, Or.inl ⟨rfl, rfl⟩⟩
    | c :: r, hnl =>
      rcases (nl_iff c).1 (hnl c r rfl) with rfl | rfl
      · match r with
        | [] => exact ⟨[0x0d], [], rfl, rfl, Or.inr (Or.inl ⟨.cr, rfl⟩)⟩
        | [d] =>
          by_cases hd : d = 0x0a
          · subst hd
            exact ⟨[0x0d, 0x0a], [], rfl, rfl, Or.inr (Or.inl ⟨.crlf, rfl⟩)⟩
          · exact ⟨[0x0d, d], [], rfl, rfl, Or.inr (Or.inr ⟨d, rfl, hd, rfl⟩)⟩
        | d :: e :: r' =>
          by_cases hd : d = 0x0a
          · subst hd
            exact ⟨[0x0d, 0x0a], e :: r', rfl, rfl, Or.inr (Or.inl ⟨.crlf, rfl⟩)⟩
          · exact ⟨[0x0d], d :: e :: r', rfl, by simp [afterEnd, hd], Or.inr (Or.inl ⟨.cr, rfl⟩)⟩
      · exact ⟨[0x0a], r, rfl, rfl, Or.inr (Or.inl ⟨.lf, rfl⟩)⟩
  obtain ⟨e, rest, h1, h2, h3⟩ := key
  refine ⟨t.takeWhile sp, _, e, rest, ?_, by rw [hg, h2], ?_, ?_, ?_, ?_, h3⟩
  · rw [List.append_assoc, ← h1]; exact ht
  · intro c hc
    have := List.all_eq_true.1 (List.all_takeWhile (p := sp) (l := t)) c hc
    exact of_decide_eq_true this
  · intro c r h
    match hd : t.dropWhile sp, h with
    | d :: r', h =>
      have hs : sp d = false := dropWhile_head hd
      by_cases hn : nl d = true
      · simp [hn] at h
      · simp only [List.takeWhile_cons, hn] at h
        injection h with h1 _
        subst h1
        exact of_decide_eq_false hs
  · intro h; have := hl _ h; simp [nl] at this
  · intro h; have := hl _ h; simp [nl] at this

/-- C106 is false: empty lines, and blanks at the start of a line, are not read. -/
theorem getline_blank_refuted :
    readLines false 2 ⟨[0x61, 0x0a, 0x0a, 0x62, 0x0a], true⟩ = some [[0x61], [0x62]] ∧
    readLines false 1 ⟨[0x20, 0x20, 0x61, 0x0a], true⟩ = some [[0x61]] := by decide +kernel

/-- C106 is false: a line of one character after a carriage return is lost. -/
theorem getline_lost_refuted :
    readLines false 2 ⟨[0x61, 0x0d, 0x62], true⟩ = some [[0x61], []] ∧
    readLines false 2 ⟨[0x61, 0x0a, 0x62], true⟩ = some [[0x61], [0x62]] := by decide +kernel

theorem getline_skip (w : Bool) {c : Nat} (h : IsSpace c) (t : List Nat) :
    getline w ⟨c :: t, true⟩ = getline w ⟨t, true⟩ := by
  rw [getline_eq, getline_eq, List.dropWhile_cons_of_pos (show sp c = true from decide_eq_true h)]

theorem readLines_skip (w : Bool) {c : Nat} (h : IsSpace c) (t : List Nat) (n : Nat) :
    readLines w n ⟨c :: t, true⟩ = readLines w n ⟨t, true⟩ := by
  match n with
  | 0 => rfl
  | n + 1 => rw [readLines, readLines, getline_skip w h]

theorem plain_span {l : List Nat} (h : Plain l) {u : List Nat}
    (hu : ∀ c r, u = c :: r → nl c = true) :
    (l ++ u).dropWhile sp = l ++ u ∧ (l ++ u).takeWhile (fun c => !nl c) = l ∧
      (l ++ u).dropWhile (fun c => !nl c) = u := by
  obtain ⟨⟨c, r, rfl, hc⟩, h2, h3⟩ := h
  have hall : ∀ x ∈ c :: r, (!nl x) = true := by
    intro x hx
    have h4 : x ≠ 0x0a := fun e => h2 (e ▸ hx)
    have h5 : x ≠ 0x0d := fun e => h3 (e ▸ hx)
    simp [nl, h4, h5]
  refine ⟨?_, ?_, ?_⟩
  · rw [List.cons_append, List.dropWhile_cons_of_neg]
    simp [sp, hc]
  · rw [List.takeWhile_append_of_pos hall]
    match u, hu with
    | [], _ => simp
    | d :: u', hu => simp [hu d u' rfl]
  · rw [List.dropWhile_append_of_pos hall]
    match u, hu with
    | [], _ => rfl
    | d :: u', hu => simp [hu d u' rfl]

theorem newline_nl (n : Newline) (rest : List Nat) :
    ∀ c r, n.text ++ rest = c :: r → nl c = true := by
  intro c r h
  cases n <;> (injection h with h _; subst h; rfl)

/-- C106, what does hold: a line that does not begin with white space is read up to its end, however
the line end is written, and the next read goes on after it. -/
theorem getline_step_partial (l : List Nat) (n : Newline) (rest : List Nat) (hl : Plain l)
    (hr : n = .cr → rest.length ≠ 1 ∧ rest.head? ≠ some 0x0a) :
    getline false ⟨l ++ (n.text ++ rest), true⟩ = some (l, ⟨rest, true⟩) := by
  obtain ⟨h1, h2, h3⟩ := plain_span hl (newline_nl n rest)
  rw [getline_eq, h1, h2, h3, readEndline_eq false _ (newline_nl n rest)]
  have : afterEnd false (n.text ++ rest) = rest := by
    match n, hr with
    | .lf, _ => rfl
    | .crlf, _ =>
      match rest with
      | [] => rfl
      | _ :: _ => rfl
    | .cr, hr =>
      obtain ⟨g1, g2⟩ := hr rfl
      match rest, g1, g2 with
      | [], _, _ => rfl
      | [_], g1, _ => exact absurd rfl g1
      | d :: e :: r', _, g2 =>
        have hd : d ≠ 0x0a := fun h => g2 (by rw [h]; rfl)
        simp [Newline.text, afterEnd, hd]
  rw [this]
  rfl

example : Plain [0x61, 0x20, 0x62] := ⟨⟨0x61, _, rfl, by decide⟩, by decide, by decide⟩

/-- C106, what does hold: the lines of a text in which none is empty, none begins with white space and
all end with a line end are read in order, whether or not the stream waits for more. -/
theorem getline_lines_partial (w : Bool) (ls : List (List Nat × Newline)) :
    (∀ x ∈ ls, Plain x.1) →
    readLines w ls.length ⟨ls.flatMap (fun x => x.1 ++ x.2.text), true⟩ = some (ls.map Prod.fst) := by
  induction ls with
  | nil => intro _; rfl
  | cons x ls ih =>
    obtain ⟨l, n⟩ := x
    intro h
    have hl : Plain l := h (l, n) (by simp)
    have ih' := ih (fun x hx => h x (List.mem_cons_of_mem _ hx))
    generalize hrest : ls.flatMap (fun x => x.1 ++ x.2.text) = rest at ih'
    have hhead : rest.length ≠ 1 ∧ rest.head? ≠ some 0x0a := by
      match ls, h, hrest with
      | [], _, hrest => subst hrest; simp
      | (l2, n2) :: ls', h, hrest =>
        obtain ⟨⟨c, r, e, hc⟩, -, -⟩ := h (l2, n2) (by simp)
        simp only at e
        subst e
        have hc' : c ≠ 0x0a := fun e => hc (by subst e; decide)
        have hn : n2.text ≠ [] := by cases n2 <;> simp [Newline.text]
        have hn' : 0 < n2.text.length := List.length_pos_iff.2 hn
        rw [← hrest]
        constructor
        · simp only [List.flatMap_cons, List.length_append, List.length_cons]; omega
        · simp [hc']
    have key : ∃ rest', getline w ⟨l ++ (n.text ++ rest), true⟩ = some (l, ⟨rest', true⟩) ∧
        (rest' = rest ∨ rest' = 0x0a :: rest) := by
      cases w with
      | false => exact ⟨rest, getline_step_partial l n rest hl (fun _ => hhead), Or.inl rfl⟩
      | true =>
        obtain ⟨h1, h2, h3⟩ := plain_span hl (newline_nl n rest)
        refine ⟨afterEnd true (n.text ++ rest), ?_, ?_⟩
        · rw [getline_eq, h1, h2, h3, readEndline_eq true _ (newline_nl n rest)]; rfl
        · cases n
          · exact Or.inl rfl
          · exact Or.inr rfl
          · exact Or.inl rfl
    obtain ⟨rest', k1, k2⟩ := key
    have k3 : readLines w ls.length ⟨rest', true⟩ = some (ls.map Prod.fst) := by
      rcases k2 with rfl | rfl
      · exact ih'
      · rw [readLines_skip w (by decide)]; exact ih'
    simp only [List.flatMap_cons, hrest, List.length_cons, List.map_cons, List.append_assoc]
    rw [readLines, k1]
    show (do
      let ls ← readLines w ls.length ⟨rest', true⟩
      return l :: ls) = _
    rw [k3]
    rfl

example : readLines true 3 ⟨[0x61, 0x0d, 0x62, 0x0d, 0x0a, 0x63, 0x20, 0x64, 0x0a], true⟩ =
    some [[0x61], [0x62], [0x63, 0x20, 0x64]] := by decide +kernel

/-! ### The echo of `in` -/

theorem normalise_plain (s : List Nat) (h : 0x0d ∉ s) : normalise s = s := by
  induction s with
  | nil => rfl
  | cons c r ih =>
    have hc : c ≠ 0x0d := fun e => h (by simp [e])
    have hr := ih (fun hm => h (List.mem_cons_of_mem _ hm))
    match r, hr with
    | [], _ => simp [normalise, hc]
    | d :: r', hr => rw [normalise, if_neg (by simp [hc]), if_neg hc, hr]

theorem normalise_split (a b : List Nat) (ha : 0x0d ∉ a) : normalise (a ++ 0x0d :: b) =
    a ++ 0x0a :: normalise (if b.head? = some 0x0a then b.tail else b) := by
  induction a with
  | nil =>
    match b with
    | [] => simp [normalise]
    | d :: b' =>
      by_cases hd : d = 0x0a
      · subst hd; simp [normalise]
      · simp [normalise, hd]
  | cons c r ih =>
    have hc : c ≠ 0x0d := fun e => ha (by simp [e])
    have hr := ih (fun hm => ha (List.mem_cons_of_mem _ hm))
    match h : r ++ 0x0d :: b with
    | [] => simp at h
    | d :: r' =>
      rw [h] at hr
      rw [List.cons_append, h, normalise, if_neg (by simp [hc]), if_neg hc, hr, List.cons_append]

theorem findIdx_none (s : List Nat) (h : 0x0d ∉ s) :
    (s.map some).findIdx? (· == some 0x0d) = none := by
  rw [List.findIdx?_eq_none_iff]
  intro x hx
  obtain ⟨c, hc, rfl⟩ := List.mem_map.1 hx
  have : c ≠ 0x0d := fun e => h (e ▸ hc)
  simpa using this

theorem findIdx_some (a : List Nat) (b : List (Option Nat)) (h : 0x0d ∉ a) :
    (a.map some ++ some 0x0d :: b).findIdx? (· == some 0x0d) = some a.length := by
  rw [List.findIdx?_append, findIdx_none a h]
  simp [List.findIdx?_cons]

theorem split_cr (s : List Nat) (h : 0x0d ∈ s) : ∃ a b, s = a ++ 0x0d :: b ∧ 0x0d ∉ a :=
  let ⟨a, b, h1, h2⟩ := List.eq_append_cons_of_mem h
  ⟨a, b, h1, h2⟩

/-- C107: in what is echoed at a time carriage returns, alone or before a line feed, are line
feeds. -/
theorem echo_newlines (n : Nat) : ∀ s out, s.length ≤ n →
    echoText (s.map some) out = out ++ (normalise s).map some := by
  induction n with
  | zero =>
    intro s out h
    have : s = [] := List.length_eq_zero_iff.1 (by omega)
    subst this
    rw [List.map_nil, echoText]; simp [normalise]
  | succ n ih =>
    intro s out h
    by_cases hm : 0x0d ∈ s
    · obtain ⟨a, b, rfl, ha⟩ := split_cr s hm
      have e : (a ++ 0x0d :: b).map some = a.map some ++ some 0x0d :: b.map some := by simp
      match hs : (a ++ 0x0d :: b).map some with
      | [] => simp at hs
      | x :: r =>
        rw [e] at hs
        rw [echoText, ← hs]
        have hf := findIdx_some a (b.map some) ha
        split
        · next h' => rw [hf] at h'; cases h'
        · next pos h' =>
          rw [hf] at h'
          injection h' with h'
          subst h'
          have ht : (a.map some ++ some 0x0d :: b.map some).take a.length = a.map some := by
            have : a.length = (a.map some).length := by simp
            rw [this, List.take_left]
          have hg : (a.map some ++ some 0x0d :: b.map some)[a.length + 1]? = (b.map some)[0]? := by
            rw [List.getElem?_append_right (by simp)]; simp
          have hd1 : (a.map some ++ some 0x0d :: b.map some).drop (a.length + 1) = b.map some := by
            have : a.length + 1 = (a.map some ++ [some 0x0d]).length := by simp
            have e3 : a.map some ++ some 0x0d :: b.map some =
                (a.map some ++ [some 0x0d]) ++ b.map some := by simp
            rw [this, e3, List.drop_left]
          have hd2 : (a.map some ++ some 0x0d :: b.map some).drop (a.length + 2) =
              b.tail.map some := by
            rw [← List.drop_drop (i := 1) (j := a.length + 1), hd1, List.drop_one, List.map_tail]
          simp only [ht, hg, hd1, hd2]
          rw [normalise_split a b ha]
          have hlen : b.length ≤ n := by
            simp only [List.length_append, List.length_cons] at h; omega
          match b, hlen with
          | [], _ =>
            rw [if_neg (by simp), ih [] _ (by simp)]
            simp
          | d :: b', hlen =>
            by_cases hd : d = 0x0a
            · subst hd
              rw [if_pos (by simp), List.tail_cons,
                ih b' _ (by simp only [List.length_cons] at hlen; omega)]
              simp
            · rw [if_neg (by simp [hd]), ih _ _ hlen]
              simp [hd]
    · rw [normalise_plain s hm]
      match s, hm with
      | [], _ => rw [List.map_nil, echoText]; simp
      | c :: r, hm =>
        have hf := findIdx_none (c :: r) hm
        rw [List.map_cons] at hf ⊢
        rw [echoText]
        split
        · rfl
        · next h' => rw [hf] at h'; cases h'

example : normalise [0x61, 0x0d, 0x0a, 0x0d, 0x62] = [0x61, 0x0a, 0x0a, 0x62] := by decide

/-- A read that gets all it asks for. -/
theorem echoRead_full (s : Echo) (n : Nat) (h : n ≤ s.rest.length) :
    echoRead s n n = (s.rest.take n, ⟨s.rest.drop n, s.unreadSize - n,
      s.out ++ (normalise ((s.rest.take n).drop s.unreadSize)).map some⟩) := by
  have hl : (s.rest.take n).length = n := by rw [List.length_take]; omega
  simp only [echoRead, Nat.min_self, hl, Nat.sub_self, List.replicate_zero, List.append_nil]
  have hu : (if n ≤ s.unreadSize then s.unreadSize - n else 0) = s.unreadSize - n := by
    split <;> omega
  rw [hu]
  by_cases hn : n > s.unreadSize
  · rw [if_pos hn]
    have e1 : n - (n - s.unreadSize) = s.unreadSize := by omega
    have e2 : (((s.rest.take n).map some).drop s.unreadSize).take (n - s.unreadSize) =
        ((s.rest.take n).drop s.unreadSize).map some := by
      rw [← List.map_drop, List.take_of_length_le]
      simp only [List.length_map, List.length_drop, hl]
      omega
    rw [e1, e2, echo_newlines _ _ _ (Nat.le_refl _)]
  · have e : (s.rest.take n).drop s.unreadSize = [] := List.drop_of_length_le (by omega)
    rw [if_neg hn, e]
    simp [normalise]

/-- C107, what does hold: a read from the terminal of a text that gets all it asks for is echoed, with
its line ends as line feeds. -/
theorem echo_read_partial (text : List Nat) (n : Nat) (h : n ≤ text.length) :
    echoRead ⟨text, 0, []⟩ n n = (text.take n, ⟨text.drop n, 0, (normalise (text.take n)).map some⟩) := by
  rw [echoRead_full _ n h]
  simp

/-- C107, what does hold: in a text without carriage returns every character is echoed once, when it is
first read, whatever reads that get all they ask for and whatever characters given back there are. -/
theorem echo_once_partial (text : List Nat) (hcr : 0x0d ∉ text) (ops : List Op) :
    ∀ pos high s, Legal text pos ops → pos ≤ text.length → s.rest = text.drop pos →
    high = pos + s.unreadSize → s.out = (text.take high).map some →
    (perform text s pos ops).out = (text.take (ops.foldl track (pos, high)).2).map some ∧
    (perform text s pos ops).rest = text.drop (ops.foldl track (pos, high)).1 := by
  induction ops with
  | nil => intro pos high s _ _ hr _ ho; exact ⟨ho, hr⟩
  | cons op ops ih =>
    intro pos high s hleg hp hr hh ho
    cases op with
    | read n =>
      obtain ⟨h1, h2⟩ := hleg
      have hn : n ≤ s.rest.length := by rw [hr, List.length_drop]; omega
      rw [perform, List.foldl_cons, track, echoRead_full s n hn]
      refine ih (pos + n) (max high (pos + n)) _ h2 h1 ?_ ?_ ?_
      · show s.rest.drop n = _
        rw [hr, List.drop_drop]
      · show max high (pos + n) = pos + n + (s.unreadSize - n)
        omega
      · show s.out ++ (normalise ((s.rest.take n).drop s.unreadSize)).map some = _
        have hno : 0x0d ∉ (s.rest.take n).drop s.unreadSize := fun hm => hcr (by
          have := List.mem_of_mem_take (List.mem_of_mem_drop hm)
          rw [hr] at this
          exact List.mem_of_mem_drop this)
        rw [normalise_plain _ hno, ho, ← List.map_append, hr]
        congr 1
        have e : ((text.drop pos).take n).drop s.unreadSize = (text.drop high).take (pos + n - high) := by
          rw [List.drop_take, List.drop_drop, ← hh]
          congr 1
          omega
        rw [e]
        by_cases hle : pos + n ≤ high
        · have : pos + n - high = 0 := by omega
          rw [this, Nat.max_eq_left hle]; simp
        · have h3 : max high (pos + n) = high + (pos + n - high) := by omega
          rw [h3, List.take_add]
    | unread n =>
      obtain ⟨h1, h2⟩ := hleg
      rw [perform, List.foldl_cons, track]
      have hl : ((text.take pos).drop (pos - n)).length = n := by
        rw [List.length_drop, List.length_take]; omega
      refine ih (pos - n) high _ h2 (by omega) ?_ ?_ ?_
      · show (text.take pos).drop (pos - n) ++ s.rest = text.drop (pos - n)
        rw [hr]
        have e : (text.take pos ++ text.drop pos).drop (pos - n) =
            (text.take pos).drop (pos - n) ++ text.drop pos :=
          List.drop_append_of_le_length (by rw [List.length_take]; omega)
        rw [← e, List.take_append_drop]
      · show high = pos - n + (s.unreadSize + ((text.take pos).drop (pos - n)).length)
        rw [hl]; omega
      · exact ho

example : Legal [0x61, 0x62, 0x63] 0 [.read 2, .unread 1, .read 2, .unread 3] := by simp [Legal]
example : (perform [0x61, 0x62, 0x63] ⟨[0x61, 0x62, 0x63], 0, []⟩ 0
    [.read 2, .unread 1, .read 2]).out = [some 0x61, some 0x62, some 0x63] := by decide +kernel

/-- C107 is false: a read that gets less than it asks for echoes what happens to be in the buffer of
the reader. -/
theorem echo_short_refuted : (echoRead ⟨[0x61], 0, []⟩ 2 2).2.out = [none] ∧
    (echoRead ⟨[0x61, 0x62, 0x63], 0, []⟩ 4 4).2.out = [some 0x62, some 0x63, none] := by
  decide +kernel

theorem echoText_last (n : Nat) : ∀ str out, str.length ≤ n → str.getLast? = some none →
    (echoText str out).getLast? = some none := by
  induction n with
  | zero =>
    intro str out h hl
    have : str = [] := List.length_eq_zero_iff.1 (by omega)
    subst this
    cases hl
  | succ n ih =>
    intro str out h hl
    match str, h, hl with
    | c :: r, h, hl =>
      rw [echoText]
      split
      · rw [List.getLast?_append, hl]; rfl
      · next pos hf =>
        obtain ⟨hp, hx, -⟩ := List.findIdx?_eq_some_iff_getElem.1 hf
        have hx' : (c :: r)[pos] = some 0x0d := by simpa using hx
        have hlast : (c :: r)[(c :: r).length - 1]? = some none := by
          rw [← List.getLast?_eq_getElem?]; exact hl
        have hne : pos ≠ (c :: r).length - 1 := by
          intro he
          rw [← he, List.getElem?_eq_getElem hp, hx'] at hlast
          cases hlast
        have hdrop : ∀ m, m < (c :: r).length → ((c :: r).drop m).getLast? = some none := by
          intro m hm
          rw [List.getLast?_drop, if_neg (by omega), hl]
        simp only
        split
        · next h2 =>
          have hlt : pos + 1 < (c :: r).length := by
            obtain ⟨h3, -⟩ := List.getElem?_eq_some_iff.1 h2; exact h3
          have hne2 : pos + 1 ≠ (c :: r).length - 1 := by
            intro he
            rw [← he, h2] at hlast
            cases hlast
          exact ih _ _ (by rw [List.length_drop]; omega) (hdrop _ (by omega))
        · exact ih _ _ (by rw [List.length_drop]; omega) (hdrop _ (by omega))

/-- C107, exactly: every read that gets some characters but fewer than it asks for, with none given
back before, echoes at least one cell nothing was read into. -/
theorem echo_short_characterised (s : Echo) (size k : Nat) (hu : s.unreadSize = 0)
    (h0 : 0 < (echoRead s size k).1.length) (h1 : (echoRead s size k).1.length < size) :
    (echoRead s size k).2.out.getLast? = some none := by
  have e : (echoRead s size k).1 = s.rest.take (min k size) := rfl
  rw [e] at h0 h1
  simp only [echoRead, hu, Nat.sub_zero]
  rw [if_pos h0]
  refine echoText_last _ _ _ (Nat.le_refl _) ?_
  have hsize : ((s.rest.take (min k size)).map some ++
      List.replicate (size - (s.rest.take (min k size)).length) (none : Option Nat)).length = size := by
    simp only [List.length_append, List.length_map, List.length_replicate]; omega
  generalize (s.rest.take (min k size)) = got at h0 h1 hsize
  rw [List.take_of_length_le (by rw [List.length_drop, hsize]; omega), List.getLast?_drop,
    if_neg (by rw [hsize]; omega), List.getLast?_append]
  obtain ⟨m, hm⟩ : ∃ m, size - got.length = m + 1 := ⟨size - got.length - 1, by omega⟩
  rw [hm, List.replicate_succ', List.getLast?_append]
  rfl

example : 0 < (echoRead ⟨[0x61, 0x62, 0x63], 0, []⟩ 4 4).1.length ∧
    (echoRead ⟨[0x61, 0x62, 0x63], 0, []⟩ 4 4).1.length < 4 := by decide

/-- C107 is false: a line end of two characters that are read one by one is echoed as two. -/
theorem echo_split_refuted :
    (perform [0x0d, 0x0a] ⟨[0x0d, 0x0a], 0, []⟩ 0 [.read 1, .read 1]).out = [some 0x0a, some 0x0a] ∧
    (perform [0x0d, 0x0a] ⟨[0x0d, 0x0a], 0, []⟩ 0 [.read 2]).out = [some 0x0a] := by decide +kernel

end ELC.Stream
