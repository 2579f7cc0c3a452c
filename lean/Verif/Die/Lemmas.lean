import Verif.Die.Spec
import Verif.Utf.Props

namespace ELC.Die
open Spec

theorem cstr_some (t r : List Nat) (h : ∀ c ∈ t, c ≠ 0) : cstr (t ++ 0 :: r) = some t := by
  induction t with
  | nil => simp [cstr]
  | cons c t ih =>
    have hc : c ≠ 0 := h c (by simp)
    have := ih (fun x hx => h x (by simp [hx]))
    simp [cstr, hc, this]

theorem cstr_none (t : List Nat) (h : ∀ c ∈ t, c ≠ 0) : cstr t = none := by
  induction t with
  | nil => simp [cstr]
  | cons c t ih =>
    have hc : c ≠ 0 := h c (by simp)
    have := ih (fun x hx => h x (by simp [hx]))
    simp [cstr, hc, this]

theorem cstr_eq (t : List Nat) : cstr t = if 0 ∈ t then some (upToZero t) else none := by
  induction t with
  | nil => simp [cstr]
  | cons c t ih =>
    by_cases hc : c = 0
    · subst hc; simp [cstr, upToZero]
    · rw [cstr, if_neg hc, ih]
      have h0 : ¬ (0 = c) := fun h => hc h.symm
      by_cases h : 0 ∈ t
      · simp [h, upToZero, hc]
      · simp [h, h0]

theorem cstr_terminated (t : List Nat) : cstr (t ++ [0]) = some (upToZero t) := by
  rw [cstr_eq, if_pos (by simp)]
  congr 1
  induction t with
  | nil => simp [upToZero]
  | cons c t ih =>
    by_cases hc : c = 0
    · simp [upToZero, hc]
    · simpa [upToZero, hc] using ih

theorem upToZero_le (t : List Nat) : (upToZero t).length ≤ t.length := by
  unfold upToZero
  exact (List.takeWhile_sublist _).length_le

theorem read_valid (v : View) (h : Valid v) : v.read = some (content v) := by
  unfold View.read; unfold Valid at h; rw [if_pos h]; rfl

theorem take_upToZero (t r : List Nat) : (t ++ r).take (upToZero t).length = upToZero t := by
  induction t with
  | nil => simp [upToZero]
  | cons c t ih =>
    by_cases hc : c = 0
    · simp [upToZero, hc]
    · simpa [upToZero, hc] using ih

theorem cstr_lit_because : cstr (lit "\nelc died because:\n") = some (chars "\nelc died because:\n") := by decide +kernel
theorem cstr_lit_died : cstr (lit "\nelc died.\n") = some (chars "\nelc died.\n") := by decide +kernel
theorem cstr_lit_nl : cstr (lit "\n") = some (chars "\n") := by decide +kernel

theorem lit_eq (t : String) : lit t = chars t ++ [0] := rfl

theorem takeWhile_all (p : Nat → Bool) (t : List Nat) : ∀ c ∈ t.takeWhile p, p c = true := by
  induction t with
  | nil => simp
  | cons d t ih =>
    intro c hc
    by_cases h : p d = true
    · rw [List.takeWhile_cons_of_pos h, List.mem_cons] at hc
      rcases hc with rfl | hc
      · exact h
      · exact ih c hc
    · rw [List.takeWhile_cons_of_neg h] at hc; simp at hc

/-- What is converted before the conversion stops. -/
theorem utf16_out (t : List Nat) : (Utf.utf32ToUtf16 t).output = Utf.Spec.utf16Text (upToBad t) := by
  have hs : ∀ c ∈ t.takeWhile (· < 0x110000), c < 0x110000 := by
    intro c hc
    simpa using takeWhile_all _ t c hc
  have h := Utf.utf32ToUtf16Loop_append _ (t.dropWhile (· < 0x110000)) hs 0 []
  rw [List.takeWhile_append_dropWhile] at h
  rw [Utf.utf32ToUtf16, h, upToBad]
  have hd : ∀ l : List Nat, ∀ d o, (Utf.utf32ToUtf16Loop d o (l.dropWhile (· < 0x110000))).output = o := by
    intro l
    induction l with
    | nil => intro d o; simp [Utf.utf32ToUtf16Loop]
    | cons c l ih =>
      intro d o
      by_cases hc : c < 0x110000
      · simpa [hc] using ih d o
      · simp [hc, Utf.utf32ToUtf16Loop, Utf.encodeUtf16_none c (by omega)]
  rw [hd]; simp

theorem upToZero_utf16 (t : List Nat) : upToZero (Utf.Spec.utf16Text t) = Utf.Spec.utf16Text (upToZero t) := by
  induction t with
  | nil => simp [upToZero, Utf.Spec.utf16Text]
  | cons c t ih =>
    unfold Utf.Spec.utf16Text at ih ⊢
    rw [List.flatMap_cons]
    by_cases hc : c = 0
    · subst hc; simp [upToZero, Utf.Spec.utf16]
    · have e1 : upToZero (c :: t) = c :: upToZero t := by simp [upToZero, hc]
      rw [e1, List.flatMap_cons, ← ih]
      unfold Utf.Spec.utf16
      by_cases h : c < 0x10000
      · simp [h, upToZero, hc]
      · simp [h, upToZero]

theorem logWide_windows (e : Err) (t : List Nat) :
    logWide .windows e (t ++ [0]) = some { e with shown := e.shown ++ text (upToZero t) } := by
  rw [logWide, cstr_terminated, Option.bind_some, logView]
  rw [View.read, if_pos (by have := upToZero_le t; simp; omega), take_upToZero]
  rfl

theorem upToZero_of (t : List Nat) (h : ∀ c ∈ t, c ≠ 0) : upToZero t = t := by
  induction t with
  | nil => rfl
  | cons c t ih =>
    have hc : c ≠ 0 := h c (by simp)
    have := ih (fun x hx => h x (by simp [hx]))
    unfold upToZero at this ⊢
    rw [List.takeWhile_cons_of_pos (by simpa using hc), this]

theorem z_because : upToZero (chars "\nelc died because:\n") = chars "\nelc died because:\n" := by decide +kernel
theorem z_nl : upToZero (chars "\n") = chars "\n" := by decide +kernel

theorem mbLoop_eq (enc : Nat → Option (List Nat)) (t : List Nat) (h : ∀ c ∈ t, (enc c).isSome) :
    ∀ out, out.length ≤ bufSize → mbLoop enc out t =
      if (out ++ bytes enc t).length ≤ bufSize then some (some (out ++ bytes enc t)) else none := by
  induction t with
  | nil => intro out ho; simp [mbLoop, bytes, ho]
  | cons c t ih =>
    intro out ho
    obtain ⟨b, hb⟩ := Option.isSome_iff_exists.mp (h c (by simp))
    have ih := ih (fun x hx => h x (by simp [hx]))
    have e1 : bytes enc (c :: t) = b ++ bytes enc t := by simp [bytes, hb]
    rw [mbLoop, hb, e1]
    dsimp only
    by_cases hl : out.length + b.length ≤ bufSize
    · rw [if_pos hl, ih (out ++ b) (by simpa using hl), List.append_assoc]
    · rw [if_neg hl, if_neg (by simp; omega)]

/-- A character without encoding ends the loop, if the array is not full before. -/
theorem mbLoop_bad (enc : Nat → Option (List Nat)) (t r : List Nat) (c : Nat) (h : ∀ c ∈ t, (enc c).isSome)
    (hc : enc c = none) :
    ∀ out, out.length ≤ bufSize → mbLoop enc out (t ++ c :: r) =
      if (out ++ bytes enc t).length ≤ bufSize then some none else none := by
  induction t with
  | nil => intro out ho; simp [mbLoop, bytes, ho, hc]
  | cons d t ih =>
    intro out ho
    obtain ⟨b, hb⟩ := Option.isSome_iff_exists.mp (h d (by simp))
    have ih := ih (fun x hx => h x (by simp [hx]))
    have e1 : bytes enc (d :: t) = b ++ bytes enc t := by simp [bytes, hb]
    rw [List.cons_append, mbLoop, hb, e1]
    dsimp only
    by_cases hl : out.length + b.length ≤ bufSize
    · rw [if_pos hl, ih (out ++ b) (by simpa using hl), List.append_assoc]
    · rw [if_neg hl, if_neg (by simp; omega)]

end ELC.Die
