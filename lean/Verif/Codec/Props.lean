import Verif.Codec.Lemmas
/-!
C145: text given to the system and read back.  C146: bytes of the system read as text.  C147: names given to the system.
-/
namespace ELC.Codec
open Spec Lemmas

/-! ### C145 -/

/-- What `to_char_str` gives is the text in the encoding of the locale, for every text and every locale, and it gives it whenever
there is one. -/
theorem written_correct (L : Locale) (t bytes : List Nat) : toCharStr L t = .ok bytes ↔ Written L t bytes :=
  ⟨toCharStr_ok, toCharStr_written⟩

/-- The program dies exactly if a character is not in the encoding. -/
theorem written_died (L : Locale) (t : List Nat) : toCharStr L t = .died ↔ ∃ c ∈ t, L.enc c = none := by
  constructor
  · intro h
    by_contra hc
    obtain ⟨parts, hp⟩ := parts_of (L := L) t (fun c hm he => hc ⟨c, hm, he⟩)
    rw [toCharStr_written ⟨parts, hp, rfl⟩] at h
    cases h
  · exact loop_died t []

/-- A text can be converted in pieces. -/
theorem written_pieces (L : Locale) (t t' b b' : List Nat) (h : toCharStr L t = .ok b) (h' : toCharStr L t' = .ok b') :
    toCharStr L (t ++ t') = .ok (b ++ b') :=
  toCharStr_written (written_append (toCharStr_ok h) (toCharStr_ok h'))

/-- Different texts are different bytes. -/
theorem written_apart (L : Locale) (hL : L.Ok) (t t' b : List Nat) (h : toCharStr L t = .ok b) (h' : toCharStr L t' = .ok b) : t = t' := by
  obtain ⟨p, hp, rfl⟩ := toCharStr_ok h
  obtain ⟨p', hp', he⟩ := toCharStr_ok h'
  exact written_inj hL t t' p p' hp hp' he

/-- In UTF-8 every text of Unicode characters is converted. -/
theorem utf8_all (t : List Nat) (h : ∀ c ∈ t, ELC.Utf.Spec.IsScalar c) : toCharStr utf8Locale t = .ok (ELC.Utf.Spec.utf8Text t) := by
  refine toCharStr_written ⟨t.map ELC.Utf.Spec.utf8, ?_, by simp [ELC.Utf.Spec.utf8Text, List.flatMap]⟩
  rw [List.map_map]
  refine List.map_congr_left fun c hc => ?_
  have := h c hc
  unfold ELC.Utf.Spec.IsScalar at this
  simp only [utf8Locale, Function.comp]
  rw [if_pos this]

/-- In the locale a C program starts with, which nothing in ELC changes, the program dies at the first character that is not ASCII. -/
theorem c_locale_refuted : ∃ t : List Nat, (∀ c ∈ t, ELC.Utf.Spec.IsScalar c) ∧ toCharStr cLocale t = .died :=
  ⟨[233], by simp [ELC.Utf.Spec.IsScalar], rfl⟩

/-- A text without the character 0, converted and converted back, is the text; whatever is behind the bytes in memory. -/
theorem round_trip_partial (L : Locale) (hL : L.Ok) (t bytes : List Nat) (h : toCharStr L t = .ok bytes) (h0 : 0 ∉ t) (after : Mem) :
    Ends L bytes after (.ok t) :=
  loop_ok hL (toCharStr_ok h) h0

/-- A text with the character 0 is converted, but the conversion back never ends. -/
theorem round_trip_refuted : ∃ (t bytes : List Nat), toCharStr utf8Locale t = .ok bytes ∧ ∀ after, Never utf8Locale bytes after :=
  ⟨[97, 0, 98], [97, 0, 98], rfl, fun _ => loop_zero utf8Locale_ok (t := [97]) (bytes := [97]) (rest := [98]) ⟨[[97]], rfl, rfl⟩ (by simp)⟩

/-- Exactly the texts without the character 0 come back; for all others the conversion back never ends. -/
theorem round_trip_characterised (L : Locale) (hL : L.Ok) (t bytes : List Nat) (h : toCharStr L t = .ok bytes) (after : Mem) :
    (0 ∉ t → Ends L bytes after (.ok t)) ∧ (0 ∈ t → Never L bytes after) := by
  refine ⟨fun h0 => round_trip_partial L hL t bytes h h0 after, fun h0 => ?_⟩
  obtain ⟨u, v, rfl, hu⟩ := List.eq_append_cons_of_mem h0
  obtain ⟨parts, hp, rfl⟩ := toCharStr_ok h
  have hp' := hp.symm
  rw [List.map_append, List.map_eq_append_iff] at hp'
  obtain ⟨p1, p2, rfl, h1, h2⟩ := hp'
  rw [List.map_cons] at h2
  cases p2 with
  | nil => simp at h2
  | cons q p2 =>
    simp only [List.map_cons, List.cons.injEq] at h2
    have hq := h2.1
    rw [hL.zero] at hq
    injection hq with hq
    subst hq
    have := loop_zero hL (after := after) (rest := p2.flatten) (t := u) (bytes := p1.flatten) ⟨p1, h1.symm, rfl⟩ hu
    simpa using this

example : toCharStr utf8Locale [97, 233, 0x4E2D, 0x1F600] = .ok [97, 0xC3, 0xA9, 0xE4, 0xB8, 0xAD, 0xF0, 0x9F, 0x98, 0x80] := by decide +kernel
example : toCharTStr utf8Locale [97, 0xC3, 0xA9, 0xE4, 0xB8, 0xAD, 0xF0, 0x9F, 0x98, 0x80] nothing 5 = some (.ok [97, 233, 0x4E2D, 0x1F600]) := by
  decide +kernel
example : utf8Locale.Ok ∧ cLocale.Ok := ⟨utf8Locale_ok, cLocale_ok⟩

/-! ### C146 -/

/-- Bytes of a C string: if they are a text, this text is given; if they are not, the program dies.  Nothing else happens. -/
theorem c_string_correct (L : Locale) (hL : L.Ok) (a : List Nat) (after : Mem) (h0 : 0 ∉ a) (ht : Terminated after) :
    (∀ t, Ends L a after (.ok t) ↔ Written L t a) ∧ ((¬ ∃ t, Written L t a) → Ends L a after .died) := by
  obtain ⟨t, bytes, rest, he, hw, hz, hc⟩ := split hL a.length [] [] a (le_refl _) ⟨[], rfl, rfl⟩ (by simp)
  simp only [List.nil_append] at he
  have hnz : ∀ u, Written L u a → 0 ∉ u := by
    intro u hu hm
    obtain ⟨parts, hp, rfl⟩ := hu
    have : L.enc 0 ∈ u.map L.enc := List.mem_map.2 ⟨0, hm, rfl⟩
    rw [hp, hL.zero] at this
    obtain ⟨p, hpm, hpe⟩ := List.mem_map.1 this
    injection hpe with hpe
    exact h0 (List.mem_flatten.2 ⟨p, hpm, by simp [hpe]⟩)
  have hok : ∀ u, Written L u a → Ends L a after (.ok u) := fun u hu => loop_ok hL hu (hnz u hu)
  have hdied : Ends L a after .died → (∀ u, Ends L a after (.ok u) ↔ Written L u a) ∧ ((¬ ∃ u, Written L u a) → Ends L a after .died) := by
    intro hd
    refine ⟨fun u => ⟨fun h => ?_, hok u⟩, fun _ => hd⟩
    have := ends_unique hd h
    cases this
  rcases hc with rfl | ⟨l, rfl⟩ | hb | ⟨hcut, hp⟩
  · rw [List.append_nil] at he
    subst he
    refine ⟨fun u => ⟨fun h => ?_, hok u⟩, fun h => absurd ⟨t, hw⟩ h⟩
    have := ends_unique (hok t hw) h
    injection this with this
    rw [← this]; exact hw
  · exact absurd (by rw [he]; simp) h0
  · subst he
    exact hdied (loop_malformed hL hw hz hb)
  · subst he
    exact hdied (loop_cut_zero hL hw hz hcut hp ht)

/-- Bytes that are not a C string may end in the middle of a character.  Then what follows them in memory is read, and what
happens depends on it: here the same bytes lead to reading where nothing is, to dying, and to going on for ever. -/
theorem cut_refuted : ∃ (a : List Nat) (m1 m2 m3 : Mem), 0 ∉ a ∧ Ends utf8Locale a m1 .fault ∧ Ends utf8Locale a m2 .died ∧
    Never utf8Locale a m3 := by
  refine ⟨[97, 0xC3], nothing, fun _ => some 0, fun i => if i = 0 then some 0xA9 else some 0, by decide,
    loop_cut_fault utf8Locale_ok (t := [97]) (bytes := [97]) (rest := [0xC3]) ⟨[[97]], rfl, rfl⟩ (by simp) ⟨by simp, rfl⟩ (by simp; omega) rfl,
    loop_cut_zero utf8Locale_ok (t := [97]) (bytes := [97]) (rest := [0xC3]) ⟨[[97]], rfl, rfl⟩ (by simp) ⟨by simp, rfl⟩ (by simp; omega) rfl, ?_⟩
  intro fuel
  have key : ∀ n, toCharTStr utf8Locale [97, 0xC3] (fun i => if i = 0 then some 0xA9 else some 0) (n + 2) = none := fun n =>
    stuck (L := utf8Locale) (m := memOf [97, 0xC3] (fun i => if i = 0 then some 0xA9 else some 0)) (e := 2) (i := 3) (by decide)
      (by decide +kernel) n _
  exact loop_less' (Nat.le_add_right fuel 2) (key fuel)

/-- What happens for all bytes, and whatever is behind them: they are a text without the character 0, followed by nothing (then the
text is given), by a zero (then the call never ends), by what is no character (then the program dies), or by the beginning of a
character that the bytes do not complete (then memory behind them is read, the text is never given, and what happens
depends on that memory). -/
theorem bytes_characterised (L : Locale) (hL : L.Ok) (a : List Nat) (after : Mem) : ∃ t bytes rest, a = bytes ++ rest ∧
    Written L t bytes ∧ 0 ∉ t ∧
    ((rest = [] ∧ Ends L a after (.ok t)) ∨ (rest.head? = some 0 ∧ Never L a after) ∨ (Malformed L rest ∧ Ends L a after .died) ∨
      (Cut L rest ∧ (∀ o, ¬ Ends L a after (.ok o)) ∧ (after 0 = none → Ends L a after .fault) ∧
        (after 0 = some 0 → Ends L a after .died))) := by
  obtain ⟨t, bytes, rest, he, hw, hz, hc⟩ := split hL a.length [] [] a (le_refl _) ⟨[], rfl, rfl⟩ (by simp)
  simp only [List.nil_append] at he
  refine ⟨t, bytes, rest, he, hw, hz, ?_⟩
  subst he
  rcases hc with rfl | ⟨l, rfl⟩ | hb | ⟨hcut, hp⟩
  · exact Or.inl ⟨rfl, by simpa using loop_ok hL hw hz⟩
  · exact Or.inr (Or.inl ⟨rfl, loop_zero hL hw hz⟩)
  · exact Or.inr (Or.inr (Or.inl ⟨hb, loop_malformed hL hw hz hb⟩))
  · exact Or.inr (Or.inr (Or.inr ⟨hcut, fun o => loop_cut_not_ok hL hw hz hcut hp o, loop_cut_fault hL hw hz hcut hp,
      loop_cut_zero hL hw hz hcut hp⟩))

/-- A view of bytes with a zero in it is never converted. -/
theorem zero_refuted (L : Locale) (hL : L.Ok) (after : Mem) : ∃ a, (∃ t, Written L t a) ∧ Never L a after :=
  ⟨[0], ⟨[0], [[0]], by simp [hL.zero], rfl⟩, loop_zero hL (t := []) (bytes := []) (rest := []) ⟨[], rfl, rfl⟩ (by simp)⟩

example : Malformed utf8Locale [0xC3, 0x28] := ⟨2, by decide, by decide, by decide +kernel, fun k hk => by
  match k, hk with
  | 0, _ => rfl
  | 1, _ => rfl⟩
example : Terminated (fun _ => some 0) := rfl
example : toCharTStr utf8Locale [97, 0xC3, 0x28] (fun _ => some 0) 9 = some .died := by decide +kernel

/-! ### C147 -/

/-- A name without the character 0 is given to the system as it is. -/
theorem name_partial {A : Type} (L : Locale) (hL : L.Ok) (sys : List Nat → A) (name bytes : List Nat) (h0 : 0 ∉ name)
    (h : Written L name bytes) : askSystem L sys name = .ok (sys bytes) := by
  rw [askSystem, toCharStr_written h]
  dsimp only
  rw [cName_all (written_zero hL h h0)]

/-- The system can tell names without the character 0 apart: if it is asked the same for two of them, they are the same. -/
theorem name_apart_partial (L : Locale) (hL : L.Ok) (name name' : List Nat) (h0 : 0 ∉ name) (h0' : 0 ∉ name')
    (b : List Nat) (h : askSystem L id name = .ok b) (h' : askSystem L id name' = .ok b) : name = name' := by
  have key : ∀ n, 0 ∉ n → askSystem L id n = .ok b → toCharStr L n = .ok b := by
    intro n hn h
    unfold askSystem at h
    split at h
    · rename_i a ha
      injection h with h
      rw [id, cName_all (written_zero hL (toCharStr_ok ha) hn)] at h
      rw [ha, h]
    · cases h
    · cases h
  exact written_apart L hL _ _ b (key _ h0 h) (key _ h0' h')

/-- With the character 0 in it, a name is taken for another one. -/
theorem name_refuted : ∃ name name' : List Nat, name ≠ name' ∧ ∀ (sys : List Nat → Bool), askSystem utf8Locale sys name = askSystem utf8Locale sys name' ∧
    askSystem utf8Locale sys name ≠ .died :=
  ⟨[97, 0, 98], [97], by decide, fun sys => ⟨rfl, by
    show Out.ok (sys _) ≠ _
    simp⟩⟩

/-- Exactly the part before the first character 0 is given to the system; the program dies exactly if a character, also behind
it, is not in the encoding. -/
theorem name_characterised {A : Type} (L : Locale) (hL : L.Ok) (sys : List Nat → A) (n m : List Nat) (h0 : 0 ∉ n) :
    ((∀ c ∈ n ++ 0 :: m, L.enc c ≠ none) → askSystem L sys (n ++ 0 :: m) = askSystem L sys n ∧ askSystem L sys n ≠ .died) ∧
    ((∃ c ∈ n ++ 0 :: m, L.enc c = none) → askSystem L sys (n ++ 0 :: m) = .died) := by
  constructor
  · intro h
    obtain ⟨p, hp⟩ := parts_of (L := L) n fun c hc => h c (by simp [hc])
    obtain ⟨q, hq⟩ := parts_of (L := L) m fun c hc => h c (by simp [hc])
    have h1 : Written L n p.flatten := ⟨p, hp, rfl⟩
    have h2 : Written L (n ++ 0 :: m) (p.flatten ++ 0 :: q.flatten) := ⟨p ++ [0] :: q, by simp [hp, hq, hL.zero], by simp⟩
    rw [name_partial L hL sys n _ h0 h1]
    rw [askSystem, toCharStr_written h2]
    dsimp only
    rw [cName_cut (written_zero hL h1 h0)]
    exact ⟨rfl, by simp⟩
  · intro h
    rw [askSystem, (written_died L _).2 h]

example : askSystem utf8Locale id [97, 47, 233] = .ok [97, 47, 0xC3, 0xA9] := by decide +kernel
example : askSystem utf8Locale id [97, 0, 98] = .ok [97] := by decide +kernel
example : askSystem cLocale id [97, 233] = .died := by decide +kernel

end ELC.Codec
