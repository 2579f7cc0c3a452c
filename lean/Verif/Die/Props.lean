import Verif.Die.Lemmas

/-! Property C194: what a dying program shows. -/
namespace ELC.Die
open Spec

/-- C194: `die` shows that ELC died, in red, and restores the colour: always on Windows, and on Linux unless something was
written to `stderr` in wide characters before. -/
theorem die_shows (s : Sys) (e : Err) (h : s = .windows ∨ s = .linux ∧ e.orient ≠ some .wide) :
    ∃ e', die s e = some e' ∧ Red e e' (chars "\nelc died.\n") := by
  rcases h with rfl | ⟨rfl, h⟩
  · refine ⟨⟨e.orient, e.shown ++ (Item.red :: text (chars "\nelc died.\n") ++ [Item.plain])⟩, ?_, rfl⟩
    simp [die, logChar, cstr_lit_died, init, logEnd, text]
  · refine ⟨⟨some .byte, e.shown ++ (Item.red :: text (chars "\nelc died.\n") ++ [Item.plain])⟩, ?_, rfl⟩
    simp [die, logChar, cstr_lit_died, init, logEnd, fputs, h, text]

example : (die .linux ⟨none, []⟩).map (·.shown.length) = some 13 := by decide +kernel

/-- C194 is false of `die`: after wide output to `stderr`, and on other systems, nothing at all is shown. -/
theorem die_shows_refuted (s : Sys) (e : Err) (h : s = .other ∨ s = .linux ∧ e.orient = some .wide) :
    die s e = some e := by
  rcases h with rfl | ⟨rfl, h⟩ <;>
    simp [die, logChar, cstr_lit_died, init, logEnd, fputs, *]

/-- C194: on Windows the report of `die_with` is exactly this, and the call is undefined exactly for texts of 2048 or more
UTF-16 units, counted up to the first character that is not in Unicode. -/
theorem windows_characterised (enc : Nat → Option (List Nat)) (e : Err) (v : View) (hv : Valid v) :
    (2048 ≤ (Utf.Spec.utf16Text (upToBad (content v))).length → dieWith .windows .as16 enc e (some v) = none) ∧
    ((Utf.Spec.utf16Text (upToBad (content v))).length < 2048 →
      ∃ e', dieWith .windows .as16 enc e (some v) = some e' ∧
        Red e e' (report (Utf.Spec.utf16Text (upToZero (upToBad (content v)))))) := by
  constructor
  · intro h
    simp only [dieWith, read_valid v hv, Option.bind_some, utf16_out, terminate, bufSize]
    rw [if_neg (by omega)]; rfl
  · intro h
    refine ⟨⟨e.orient, e.shown ++ (Item.red :: text (report (Utf.Spec.utf16Text (upToZero (upToBad (content v))))) ++
      [Item.plain])⟩, ?_, rfl⟩
    simp only [dieWith, read_valid v hv, Option.bind_some, utf16_out, terminate, bufSize]
    rw [if_pos h]
    simp only [Option.bind_some, sayWide, lit_eq, logWide_windows, init, Option.map_some, logEnd, z_because, z_nl,
      upToZero_utf16]
    simp [report, text]

/-- C194 for Windows: every text of Unicode characters without the character 0 that has less than 2048 UTF-16 units is shown
completely, in red, and the colour is restored. -/
theorem windows_partial (enc : Nat → Option (List Nat)) (e : Err) (v : View) (hv : Valid v)
    (hu : ∀ c ∈ content v, c ≠ 0 ∧ Utf.Spec.IsCodePoint c) (hl : (Utf.Spec.utf16Text (content v)).length < 2048) :
    ∃ e', dieWith .windows .as16 enc e (some v) = some e' ∧ Red e e' (report (Utf.Spec.utf16Text (content v))) := by
  have hb : upToBad (content v) = content v := by
    have hu' : ∀ c ∈ content v, c < 0x110000 := fun c hc => by
      have := (hu c hc).2; unfold Utf.Spec.IsCodePoint at this; omega
    revert hu'; generalize content v = t; intro hu'
    induction t with
    | nil => rfl
    | cons c t ih =>
      have := ih (fun x hx => hu' x (by simp [hx]))
      unfold upToBad at this ⊢
      rw [List.takeWhile_cons_of_pos (by simpa using hu' c (by simp)), this]
  have h := (windows_characterised enc e v hv).2 (by rw [hb]; exact hl)
  rw [hb, upToZero_of _ (fun c hc => (hu c hc).1)] at h
  exact h

/-- C194 is false: a message of 2048 letters writes behind the array. -/
theorem windows_long_refuted (enc : Nat → Option (List Nat)) (e : Err) :
    dieWith .windows .as16 enc e (some ⟨List.replicate 2048 97 ++ [0], 2048⟩) = none := by
  refine (windows_characterised enc e _ (by unfold Valid; decide +kernel)).1 ?_
  decide +kernel

example : dieWith .windows .as16 (fun _ => none) ⟨none, []⟩ (some ⟨[0x1F600, 33, 0], 2⟩) =
    some ⟨none, .red :: text (chars "\nelc died because:\n" ++ [0xD83D, 0xDE00, 33] ++ chars "\n") ++ [.plain]⟩ := by
  decide +kernel

/-- C194: on Linux, where `wchar_t` is as wide as a character, `die_with` is undefined exactly when no zero follows the message
in readable memory.  If `stderr` was not used for wide characters before, it changes the colour to red and back and shows nothing
else; otherwise it shows the text, not in red, up to the first zero and not up to the end of the message. -/
theorem linux_characterised (enc : Nat → Option (List Nat)) (e : Err) (v : View) :
    dieWith .linux .as32 enc e (some v) =
      if 0 ∈ v.mem then
        if e.orient = some .wide then some ⟨some .wide, e.shown ++ text (report (upToZero v.mem))⟩
        else some ⟨some .byte, e.shown ++ [.red, .plain]⟩
      else none := by
  have e1 (e : Err) : logWide .linux e (lit "\nelc died because:\n") =
      some (fputws e (text (chars "\nelc died because:\n"))) := by
    simp [logWide, logView, cstr_lit_because, text]
  have e2 (e : Err) : logWide .linux e (lit "\n") = some (fputws e (text (chars "\n"))) := by
    simp [logWide, logView, cstr_lit_nl, text]
  by_cases h0 : 0 ∈ v.mem
  · have e3 (e : Err) : logView .linux e v = some (fputws e (text (upToZero v.mem))) := by
      simp [logView, cstr_eq, h0, text]
    rw [if_pos h0]
    simp only [dieWith, sayView, e1, e2, e3, Option.bind_some, Option.map_some]
    by_cases hw : e.orient = some .wide
    · rw [if_pos hw]
      simp [init, logEnd, fputs, fputws, hw, report, text]
    · rw [if_neg hw]
      simp [init, logEnd, fputs, fputws, hw]
  · have e3 (e : Err) : logView .linux e v = none := by simp [logView, cstr_eq, h0]
    rw [if_neg h0]
    simp only [dieWith, sayView, e1, e3, Option.bind_some, Option.bind_none]

/-- C194 is false on Linux: whatever the message, nothing of it is shown, nor that ELC died, unless `stderr` was used for wide
characters before. -/
theorem linux_refuted (enc : Nat → Option (List Nat)) (e : Err) (ho : e.orient ≠ some .wide) (v : View) (e' : Err)
    (h : dieWith .linux .as32 enc e (some v) = some e') : e'.shown = e.shown ++ [.red, .plain] := by
  rw [linux_characterised] at h
  by_cases h0 : 0 ∈ v.mem
  · rw [if_pos h0, if_neg ho] at h; simp at h; rw [← h]
  · rw [if_neg h0] at h; simp at h

example : dieWith .linux .as32 (fun _ => none) ⟨none, []⟩ (some ⟨[104, 105, 0], 2⟩) = some ⟨some .byte, [.red, .plain]⟩ := by
  decide +kernel

/-- C194 for Linux, what is left of it: a message that ends with a zero and has no other is shown completely, though not in
red, if `stderr` was used for wide characters before. -/
theorem linux_partial (enc : Nat → Option (List Nat)) (e : Err) (ho : e.orient = some .wide) (t r : List Nat)
    (ht : ∀ c ∈ t, c ≠ 0) :
    ∃ e', dieWith .linux .as32 enc e (some ⟨t ++ 0 :: r, t.length⟩) = some e' ∧ e'.shown = e.shown ++ text (report t) := by
  refine ⟨⟨some .wide, e.shown ++ text (report t)⟩, ?_, rfl⟩
  rw [linux_characterised, if_pos (by simp), if_pos ho]
  have h := cstr_some t r ht
  rw [cstr_eq, if_pos (by simp)] at h
  simp only [Option.some.injEq] at h
  simp only [h]

example : ∀ c ∈ ([104, 105] : List Nat), c ≠ 0 := by decide

/-- C194 is false of a message that is only a part of a text: the rest is shown too. -/
theorem linux_part_refuted (enc : Nat → Option (List Nat)) :
    dieWith .linux .as32 enc ⟨some .wide, []⟩ (some ⟨[104, 105, 33, 0], 2⟩) =
      some ⟨some .wide, text (report [104, 105, 33])⟩ := by
  rw [linux_characterised]; decide +kernel

/-- C194: where `wchar_t` is neither, the message is shown in the encoding of the locale, if that has all its characters and the
bytes fit into the array with a zero; otherwise the call is undefined. -/
theorem locale_characterised (enc : Nat → Option (List Nat)) (s : Sys) (e : Err) (v : View) (hv : Valid v)
    (hs : s = .windows ∨ s = .linux ∧ e.orient ≠ some .wide) (he : ∀ c ∈ content v, (enc c).isSome) :
    (2048 ≤ (bytes enc (content v)).length → dieWith s .neither enc e (some v) = none) ∧
    ((bytes enc (content v)).length < 2048 →
      ∃ e', dieWith s .neither enc e (some v) = some e' ∧ Red e e' (report (upToZero (bytes enc (content v))))) := by
  have hm := mbLoop_eq enc (content v) he [] (by simp)
  rw [List.nil_append] at hm
  constructor
  · intro h
    simp only [dieWith, read_valid v hv, Option.bind_some, hm]
    by_cases h2 : (bytes enc (content v)).length ≤ bufSize
    · rw [if_pos h2]
      simp only [Option.bind_some, terminate]
      rw [if_neg (by unfold bufSize; omega)]; rfl
    · rw [if_neg h2]; rfl
  · intro h
    have hd : dieWith s .neither enc e (some v) = sayChar s e (bytes enc (content v) ++ [0]) := by
      simp only [dieWith, read_valid v hv, Option.bind_some, hm]
      rw [if_pos (by unfold bufSize; omega)]
      simp only [Option.bind_some, terminate]
      rw [if_pos (by unfold bufSize; omega)]; rfl
    rw [hd]
    rcases hs with rfl | ⟨rfl, ho⟩
    · refine ⟨⟨e.orient, e.shown ++ (Item.red :: text (report (upToZero (bytes enc (content v)))) ++ [Item.plain])⟩, ?_, rfl⟩
      simp [sayChar, logChar, cstr_lit_because, cstr_lit_nl, cstr_terminated, init, logEnd, report, text]
    · refine ⟨⟨some .byte, e.shown ++ (Item.red :: text (report (upToZero (bytes enc (content v)))) ++ [Item.plain])⟩, ?_, rfl⟩
      simp [sayChar, logChar, cstr_lit_because, cstr_lit_nl, cstr_terminated, init, logEnd, fputs, ho, report, text]

/-- C194: a character that the locale cannot write makes it a death without reason. -/
theorem locale_bad (enc : Nat → Option (List Nat)) (s : Sys) (e : Err) (v : View) (hv : Valid v) (t r : List Nat) (c : Nat)
    (hc : content v = t ++ c :: r) (he : ∀ d ∈ t, (enc d).isSome) (hn : enc c = none)
    (hl : (bytes enc t).length ≤ 2048) : dieWith s .neither enc e (some v) = die s e := by
  have hm := mbLoop_bad enc t r c he hn [] (by simp)
  rw [List.nil_append, if_pos (by unfold bufSize; exact hl)] at hm
  simp only [dieWith, read_valid v hv, Option.bind_some, hc, hm]

/-- ASCII as a locale. -/
def ascii (c : Nat) : Option (List Nat) := if c < 128 then some [c] else none

example : Valid ⟨[104, 105, 0], 2⟩ ∧ (∀ c ∈ content ⟨[104, 105, 0], 2⟩, (ascii c).isSome) := by
  unfold Valid; decide
example : content ⟨[104, 300, 0], 3⟩ = [104] ++ 300 :: [0] ∧ ascii 300 = none := by decide

/-- C194: no message is a death without reason. -/
theorem no_message (enc : Nat → Option (List Nat)) (s : Sys) (w : Wch) (e : Err) :
    dieWith s w enc e none = die s e := rfl

/-- C194: an empty message that is no null pointer is shown as a reason that is empty. -/
theorem empty_message (enc : Nat → Option (List Nat)) (e : Err) :
    ∃ e', dieWith .windows .as16 enc e (some ⟨[0], 0⟩) = some e' ∧ Red e e' (report []) :=
  windows_partial enc e ⟨[0], 0⟩ (by unfold Valid; simp) (by simp [content]) (by simp [content, Utf.Spec.utf16Text])

end ELC.Die
