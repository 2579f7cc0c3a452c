import Mathlib.Tactic.SplitIfs
import Verif.Stdwrap.Spec
/-! Properties of the streams of the C++ library as streams of ELC. -/
namespace ELC.Stdwrap

variable {A : Type}

/-! ### C201: reading -/

/-- What is still to be read. -/
def In.rest (s : In A) : List A := s.text.drop s.pos

theorem good_iff (s : In A) : s.good = true ↔ s.eof = false ∧ s.fail = false ∧ s.bad = false := by
  unfold In.good
  cases s.eof <;> cases s.fail <;> cases s.bad <;> simp

theorem sentry_plain {ws : A → Bool} {s : In A} (hg : s.good = true) (hs : s.skipws = false) (b : Bool) :
    sentry ws b s = (true, s) := by
  simp [sentry, hg, hs]

theorem sentry_no {ws : A → Bool} {s : In A} (hg : s.good = true) : sentry ws true s = (true, s) := by
  simp [sentry, hg]

theorem sentry_dead {ws : A → Bool} {s : In A} (h : s.fail = true ∨ s.bad = true) (b : Bool) :
    sentry ws b s = (false, { s with fail := true }) := by
  have : s.good = false := by
    rcases h with h | h <;> simp [In.good, h]
  simp [sentry, this]

theorem drop_takeWhile (p : A → Bool) (l : List A) : l.drop (l.takeWhile p).length = l.dropWhile p := by
  induction l with
  | nil => rfl
  | cons a l ih =>
    cases h : p a
    · simp [h]
    · simp [h, ih]

theorem sentry_skip {ws : A → Bool} {s : In A} (hg : s.good = true) (hs : s.skipws = true) :
    (s.rest.dropWhile ws ≠ [] ∧ ∃ p, sentry ws false s = (true, { s with pos := p }) ∧ p = s.pos + (s.rest.takeWhile ws).length ∧
        s.text.drop p = s.rest.dropWhile ws) ∨
      (s.rest.dropWhile ws = [] ∧ ∃ p, sentry ws false s = (false, { s with pos := p, eof := true, fail := true })) := by
  have hd : s.text.drop (s.pos + (s.rest.takeWhile ws).length) = s.rest.dropWhile ws := by
    rw [← List.drop_drop]
    exact drop_takeWhile ws s.rest
  by_cases h : s.pos + (s.rest.takeWhile ws).length < s.text.length
  · left
    refine ⟨?_, _, ?_, rfl, hd⟩
    · rw [← hd]
      intro hn
      rw [List.drop_eq_nil_iff] at hn
      omega
    · unfold In.rest at h
      simp [sentry, hg, hs, h, In.rest]
  · right
    refine ⟨?_, s.pos + (s.rest.takeWhile ws).length, ?_⟩
    · rw [← hd, List.drop_eq_nil_iff]; omega
    · unfold In.rest at h
      simp only [sentry, hg, hs, if_true, Bool.not_false, Bool.and_self, if_neg h]
      rfl

theorem stdRead_good {ws : A → Bool} {s : In A} (hg : s.good = true) (n : Nat) :
    (stdRead ws s n).1 = s.rest.take n ∧ (stdRead ws s n).2.rest = s.rest.drop n ∧
      ((stdRead ws s n).2.good = true ↔ n ≤ s.rest.length) ∧ (stdRead ws s n).2.skipws = s.skipws ∧
      ((stdRead ws s n).2.good = false → (stdRead ws s n).2.fail = true) := by
  unfold stdRead
  rw [sentry_no hg]
  have hr : s.text.drop (s.pos + (s.rest.take n).length) = s.rest.drop n := by
    rw [← List.drop_drop]
    show s.rest.drop _ = _
    rw [List.length_take]
    rcases Nat.le_total n s.rest.length with h | h
    · rw [Nat.min_eq_left h]
    · rw [Nat.min_eq_right h, List.drop_length, List.drop_of_length_le h]
  by_cases h : (s.rest.take n).length = n
  · have hn : n ≤ s.rest.length := by rw [List.length_take] at h; omega
    unfold In.rest at h
    simp only [h, if_true]
    refine ⟨rfl, by unfold In.rest at *; rw [h] at hr; exact hr, ⟨fun _ => hn, fun _ => hg⟩, trivial, ?_⟩
    intro hb
    have : ({ s with pos := s.pos + n } : In A).good = s.good := rfl
    rw [this, hg] at hb
    simp at hb
  · have hn : ¬ n ≤ s.rest.length := by rw [List.length_take] at h; omega
    unfold In.rest at h
    simp only [h, if_false]
    exact ⟨rfl, hr, ⟨fun hb => by simp [In.good] at hb, fun hb => absurd hb hn⟩, trivial, fun _ => trivial⟩

/-- **C201 (`read`), exactly**, of a stream without an error: white space is left out before anything is read, if the stream is as
it was made; the stream has an error afterwards if less was there than asked for, or nothing but white space. -/
theorem read_characterised (ws : A → Bool) {s : In A} (hg : s.good = true) (n : Nat) :
    (s.skipws = false → (read ws s n).1 = s.rest.take n ∧ (read ws s n).2.rest = s.rest.drop n ∧
      ((read ws s n).2.good = true ↔ n ≤ s.rest.length)) ∧
    (s.skipws = true → s.rest.dropWhile ws ≠ [] → (read ws s n).1 = (s.rest.dropWhile ws).take n ∧
      (read ws s n).2.rest = (s.rest.dropWhile ws).drop n ∧
      ((read ws s n).2.good = true ↔ n ≤ (s.rest.dropWhile ws).length)) ∧
    (s.skipws = true → s.rest.dropWhile ws = [] → (read ws s n).1 = [] ∧ (read ws s n).2.fail = true) := by
  refine ⟨?_, ?_, ?_⟩
  · intro hs
    unfold read
    rw [sentry_plain hg hs]
    have := stdRead_good (ws := ws) hg n
    exact ⟨this.1, this.2.1, this.2.2.1⟩
  · intro hs hne
    rcases sentry_skip (ws := ws) hg hs with ⟨_, p, e, _, hd⟩ | ⟨h0, _⟩
    · unfold read
      rw [e]
      have := stdRead_good (ws := ws) (s := { s with pos := p }) hg n
      have hr : ({ s with pos := p } : In A).rest = s.rest.dropWhile ws := hd
      rw [hr] at this
      exact ⟨this.1, this.2.1, this.2.2.1⟩
    · exact absurd h0 hne
  · intro hs h0
    rcases sentry_skip (ws := ws) hg hs with ⟨hne, _⟩ | ⟨_, p, e⟩
    · exact absurd h0 hne
    · unfold read
      rw [e]
      exact ⟨rfl, rfl⟩

theorem dropWhile_head (ws : A → Bool) (l : List A) : ∀ c ∈ (l.dropWhile ws).head?, ws c = false := by
  induction l with
  | nil => simp
  | cons a l ih =>
    cases h : ws a
    · simp [h]
    · simpa [h] using ih

/-- C201 is false of the program: a portion of a stream as it is made is right if and only if nothing was asked for or what is there
does not begin with white space. -/
theorem read_refuted (ws : A → Bool) {s : In A} (hg : s.good = true) (hs : s.skipws = true) (n : Nat) :
    (read ws s n).1 = s.rest.take n ↔ n = 0 ∨ ∀ c ∈ s.rest.head?, ws c = false := by
  obtain ⟨_, h2, h3⟩ := read_characterised ws hg n
  have hread : (read ws s n).1 = (s.rest.dropWhile ws).take n := by
    by_cases h : s.rest.dropWhile ws = []
    · rw [(h3 hs h).1, h, List.take_nil]
    · exact (h2 hs h).1
  rw [hread]
  cases n with
  | zero => simp
  | succ n =>
    cases e : s.rest with
    | nil => simp
    | cons a l =>
      cases h : ws a with
      | false => simp [h]
      | true =>
        have hd := dropWhile_head ws l
        simp only [List.dropWhile_cons, h, if_true, List.take_succ_cons, List.head?_cons, Nat.add_eq_zero_iff,
          Nat.succ_ne_self, Option.mem_def, Option.some.injEq, forall_eq']
        cases e2 : l.dropWhile ws with
        | nil => simp
        | cons b m =>
          rw [e2] at hd
          have hb : ws b = false := hd b rfl
          simp only [List.take_succ_cons, List.cons.injEq]
          constructor
          · rintro ⟨rfl, _⟩
            rw [h] at hb
            simp at hb
          · intro hc
            simp at hc

-- " ab c" in portions of two: the blanks at the beginning of each portion are gone
example : (reads (fun c => c == 0x20) (⟨[0x20, 0x61, 0x62, 0x20, 0x63], 0, false, false, false, true⟩ : In Nat) [2, 2]).1 =
    [[0x61, 0x62], [0x63]] := by decide

theorem dead_exec (ws : A → Bool) {s : In A} (h : s.fail = true ∨ s.bad = true) (o : Op) :
    (∀ l, (exec ws s o).1 = .text l → l = []) ∧ (∀ z, (exec ws s o).1 = .num z → z = -1) ∧
      ((exec ws s o).2.fail = true ∨ (exec ws s o).2.bad = true) := by
  cases o with
  | read n => simp [exec, read, sentry_dead h]
  | tell => simp [exec, tell, sentry_dead h]
  | seek d off => simp [exec, seek, sentry_dead h]
  | seekTo p =>
    have h' : ({ s with eof := false } : In A).fail = true ∨ ({ s with eof := false } : In A).bad = true := h
    simp [exec, seekTo, stdSeek, sentry_dead h']
  | sync => simp [exec, sync, sentry_dead h]

/-- C201 is false of the program: a stream that had an error, such as a read beyond its end, can never be used again: whatever is
done with it, every read gives nothing and every position is -1. -/
theorem dead_refuted (ws : A → Bool) (os : List Op) : ∀ {s : In A}, s.fail = true ∨ s.bad = true →
    ∀ r ∈ (run ws s os).1, r = .text [] ∨ r = .num (-1) ∨ r = .done := by
  induction os with
  | nil => intro s _ r hr; simp [run] at hr
  | cons o os ih =>
    intro s h r hr
    obtain ⟨h1, h2, h3⟩ := dead_exec ws h o
    rw [run] at hr
    rcases List.mem_cons.1 hr with rfl | hr
    · cases e : (exec ws s o).1 with
      | text l => rw [h1 l e]; exact .inl rfl
      | num z => rw [h2 z e]; exact .inr (.inl rfl)
      | done => exact .inr (.inr rfl)
    · exact ih h3 r hr

-- "ab" read to its end and then rewound
example : (run (fun c => c == 0x20) (⟨[0x61, 0x62], 0, false, false, false, true⟩ : In Nat) [.read 3, .seek .beg 0, .read 1]).1 =
    [.text [0x61, 0x62], .num (-1), .text []] := by decide

theorem reads_dead (ws : A → Bool) (ns : List Nat) : ∀ {s : In A}, s.fail = true ∨ s.bad = true →
    (reads ws s ns).1.flatten = [] := by
  induction ns with
  | nil => intro s _; rfl
  | cons n ns ih =>
    intro s h
    have h1 := dead_exec ws h (.read n)
    have e : (read ws s n).1 = [] := h1.1 _ rfl
    have h2 : (read ws s n).2.fail = true ∨ (read ws s n).2.bad = true := h1.2.2
    rw [reads, List.flatten_cons, e, ih h2]
    rfl

/-- What one read does, if no white space is skipped. -/
theorem read_whole (ws : A → Bool) {s : In A} (hg : s.good = true) (h : s.skipws = false ∨ ∀ c ∈ s.rest, ws c = false) (n : Nat) :
    (read ws s n).1 = s.rest.take n ∧
      (((read ws s n).2.good = true ∧ (read ws s n).2.rest = s.rest.drop n ∧ (read ws s n).2.skipws = s.skipws) ∨
        ((read ws s n).2.fail = true ∧ s.rest.length ≤ n) ∨ ((read ws s n).2.fail = true ∧ s.rest = [])) := by
  have fin : ∀ {t : In A}, t.good = true → t.rest = s.rest → t.skipws = s.skipws → sentry ws false s = (true, t) →
      (read ws s n).1 = s.rest.take n ∧
      (((read ws s n).2.good = true ∧ (read ws s n).2.rest = s.rest.drop n ∧ (read ws s n).2.skipws = s.skipws) ∨
        ((read ws s n).2.fail = true ∧ s.rest.length ≤ n) ∨ ((read ws s n).2.fail = true ∧ s.rest = [])) := by
    intro t tg tr ts e
    unfold read
    rw [e]
    obtain ⟨h1, h2, h3, h4, h5⟩ := stdRead_good (ws := ws) tg n
    rw [tr] at h1 h2 h3
    refine ⟨h1, ?_⟩
    cases hb : (stdRead ws t n).2.good with
    | true => exact .inl ⟨rfl, h2, h4.trans ts⟩
    | false =>
      refine .inr (.inl ⟨h5 hb, ?_⟩)
      have : ¬ n ≤ s.rest.length := fun hn => by rw [h3.2 hn] at hb; simp at hb
      omega
  by_cases hs : s.skipws = false
  · exact fin hg rfl rfl (sentry_plain hg hs false)
  · have hs : s.skipws = true := by simpa using hs
    have hw : ∀ c ∈ s.rest, ws c = false := by
      rcases h with h | h
      · rw [hs] at h; simp at h
      · exact h
    have hd : s.rest.dropWhile ws = s.rest := by
      cases e : s.rest with
      | nil => rfl
      | cons a l => simp [hw a (by rw [e]; simp)]
    rcases sentry_skip (ws := ws) hg hs with ⟨_, p, e, _, hr⟩ | ⟨h0, p, e⟩
    · exact fin (t := { s with pos := p }) hg (hr.trans hd) rfl e
    · rw [hd] at h0
      unfold read
      rw [e, h0]
      exact ⟨by simp, .inr (.inr ⟨rfl, rfl⟩)⟩

/-- C201, part: if the stream does not skip white space, or has none, then whatever portions are asked for, together they are what is
there, from the beginning and in order, as far as they reach. -/
theorem reads_partial (ws : A → Bool) (ns : List Nat) : ∀ {s : In A}, s.good = true →
    (s.skipws = false ∨ ∀ c ∈ s.rest, ws c = false) → (reads ws s ns).1.flatten = s.rest.take ns.sum := by
  induction ns with
  | nil => intro s _ _; simp [reads]
  | cons n ns ih =>
    intro s hg h
    obtain ⟨h1, h2⟩ := read_whole ws hg h n
    rw [reads, List.flatten_cons, h1, List.sum_cons]
    rcases h2 with ⟨g, r, k⟩ | ⟨f, l⟩ | ⟨f, l⟩
    · rw [ih g (by
        rcases h with h | h
        · exact .inl (k.trans h)
        · exact .inr (by rw [r]; exact fun c hc => h c (List.mem_of_mem_drop hc))), r, List.take_add]
    · rw [reads_dead ws ns (.inl f), List.append_nil, List.take_of_length_le l, List.take_of_length_le (by omega)]
    · rw [reads_dead ws ns (.inl f), l]
      simp

example : (reads (fun c => c == 0x20) (⟨[0x61, 0x20, 0x62], 0, false, false, false, false⟩ : In Nat) [1, 1, 5]).1 =
    [[0x61], [0x20], [0x62]] := by decide

theorem mem_takeWhile_ws (ws : A → Bool) (l : List A) : ∀ c ∈ l.takeWhile ws, ws c = true := by
  induction l with
  | nil => simp
  | cons a l ih =>
    cases h : ws a
    · simp [h]
    · simpa [h] using ih

/-- C201: only white space is lost, whatever portions are asked for: the other characters are those of a beginning of the text, in
their order. -/
theorem reads_ink (ws : A → Bool) (ns : List Nat) : ∀ {s : In A}, s.good = true →
    ∃ l, l <+: s.rest ∧ (reads ws s ns).1.flatten.filter (fun c => !ws c) = l.filter (fun c => !ws c) ∧
      (reads ws s ns).1.flatten.Sublist l := by
  induction ns with
  | nil => intro s _; exact ⟨[], List.nil_prefix, rfl, List.Sublist.refl _⟩
  | cons n ns ih =>
    intro s hg
    -- what is read of what is left after skipping
    have key : ∀ {t : In A} {w r : List A}, t.good = true → s.rest = w ++ r → r = t.rest → (∀ c ∈ w, ws c = true) →
        sentry ws false s = (true, t) → ∃ l, l <+: s.rest ∧
          (reads ws s (n :: ns)).1.flatten.filter (fun c => !ws c) = l.filter (fun c => !ws c) ∧
          (reads ws s (n :: ns)).1.flatten.Sublist l := by
      intro t w r tg hw hr hws e
      have er : read ws s n = stdRead ws t n := by unfold read; rw [e]
      obtain ⟨h1, h2, _, _, h5⟩ := stdRead_good (ws := ws) tg n
      have hwf : w.filter (fun c => !ws c) = [] := by
        rw [List.filter_eq_nil_iff]; intro c hc; simp [hws c hc]
      rw [reads, List.flatten_cons, er, h1]
      cases hb : (stdRead ws t n).2.good with
      | true =>
        obtain ⟨l, ⟨u, hu⟩, h3, h4⟩ := ih hb
        refine ⟨w ++ t.rest.take n ++ l, ⟨u, ?_⟩, ?_, ?_⟩
        · rw [List.append_assoc, hu, h2, List.append_assoc, List.take_append_drop, hw, hr]
        · rw [List.filter_append, List.filter_append, List.filter_append, hwf, h3]; rfl
        · exact List.Sublist.append (List.sublist_append_right _ _) h4
      | false =>
        rw [reads_dead ws ns (.inl (h5 hb)), List.append_nil]
        refine ⟨w ++ t.rest.take n, ?_, ?_, List.sublist_append_right _ _⟩
        · rw [hw, hr]; exact (List.prefix_append_right_inj w).2 (List.take_prefix _ _)
        · rw [List.filter_append, hwf]; rfl
    by_cases hs : s.skipws = false
    · exact key (w := []) hg rfl rfl (by simp) (sentry_plain hg hs false)
    · have hs : s.skipws = true := by simpa using hs
      rcases sentry_skip (ws := ws) hg hs with ⟨_, p, e, _, hr⟩ | ⟨h0, p, e⟩
      · exact key (t := { s with pos := p }) (w := s.rest.takeWhile ws) hg List.takeWhile_append_dropWhile.symm hr.symm
          (mem_takeWhile_ws ws s.rest) e
      · have er : read ws s n = ([], { s with pos := p, eof := true, fail := true, bad := true }) := by unfold read; rw [e]
        rw [reads, List.flatten_cons, er, reads_dead ws ns (.inl rfl)]
        exact ⟨[], List.nil_prefix, rfl, List.Sublist.refl _⟩

/-- **C201 (`tell`), exactly**, of a stream without an error: asking for the position moves it past the white space that follows; at
the end, or before nothing but white space, the answer is -1 and the stream cannot be used again. -/
theorem tell_characterised (ws : A → Bool) {s : In A} (hg : s.good = true) :
    (s.skipws = false → tell ws s = ((s.pos : Int), s)) ∧
    (s.skipws = true → s.rest.dropWhile ws ≠ [] → tell ws s = (((s.pos + (s.rest.takeWhile ws).length : Nat) : Int),
      { s with pos := s.pos + (s.rest.takeWhile ws).length })) ∧
    (s.skipws = true → s.rest.dropWhile ws = [] → (tell ws s).1 = -1 ∧ (tell ws s).2.fail = true) := by
  obtain ⟨_, hf, hb⟩ := (good_iff s).1 hg
  refine ⟨?_, ?_, ?_⟩
  · intro hs
    unfold tell
    rw [sentry_plain hg hs]
    simp only [stdTell, sentry_no hg, hf, hb, Bool.or_self, Bool.false_eq_true, if_false]
  · intro hs hne
    rcases sentry_skip (ws := ws) hg hs with ⟨_, p, e, hp, _⟩ | ⟨h0, _⟩
    · unfold tell
      have hg' : ({ s with pos := p } : In A).good = true := hg
      rw [e, ← hp]
      simp only [stdTell, sentry_no hg']
      simp only [hf, hb, Bool.or_self, Bool.false_eq_true, if_false]
    · exact absurd h0 hne
  · intro hs h0
    rcases sentry_skip (ws := ws) hg hs with ⟨hne, _⟩ | ⟨_, p, e⟩
    · exact absurd h0 hne
    · unfold tell
      rw [e]
      exact ⟨rfl, rfl⟩

-- "a b": after "a" the position is said to be 2, and then the blank cannot be read any more
example : (run (fun c => c == 0x20) (⟨[0x61, 0x20, 0x62], 0, false, false, false, true⟩ : In Nat) [.read 1, .tell, .read 1, .tell]).1 =
    [.text [0x61], .num 2, .text [0x62], .num (-1)] := by decide

/-- The stream is the file. -/
structure Is (s : In A) (f : Spec.File A) : Prop where
  text : s.text = f.text
  pos : s.pos = f.pos
  good : s.good = true
  skipws : s.skipws = false

theorem stdSeek_good {ws : A → Bool} {s : In A} (hg : s.good = true) {z : Int} (h : 0 ≤ z ∧ z ≤ s.text.length) :
    stdSeek ws s z = { s with pos := z.toNat } := by
  obtain ⟨he, _, _⟩ := (good_iff s).1 hg
  have e : ({ s with eof := false } : In A) = s := by cases s; simp at he; simp [he]
  unfold stdSeek
  rw [e, sentry_no hg]
  exact if_pos h

theorem exec_is (ws : A → Bool) {s : In A} {f f' : Spec.File A} {r : Res A} (hi : Is s f) {o : Op}
    (h : Spec.exec f o = some (r, f')) : ∃ s', exec ws s o = (r, s') ∧ Is s' f' := by
  obtain ⟨h1, h2, h3, h4⟩ := hi
  have seeks : ∀ {z : Int}, 0 ≤ z ∧ z ≤ f.text.length → stdSeek ws s z = { s with pos := z.toNat } :=
    fun hz => stdSeek_good h3 (by rw [h1]; exact hz)
  cases o with
  | read n =>
    simp only [Spec.exec] at h
    split at h
    · next hn =>
      simp only [Option.some.injEq, Prod.mk.injEq] at h
      obtain ⟨rfl, rfl⟩ := h
      have hl : ((s.text.drop s.pos).take n).length = n := by
        rw [List.length_take, List.length_drop, h1, h2]; omega
      refine ⟨{ s with pos := s.pos + n }, ?_, h1, by rw [h2], h3, h4⟩
      simp only [exec, read, sentry_plain h3 h4, stdRead, hl, if_true]
      rw [h1, h2]
    · simp at h
  | tell =>
    simp only [Spec.exec, Option.some.injEq, Prod.mk.injEq] at h
    obtain ⟨rfl, rfl⟩ := h
    refine ⟨s, ?_, h1, h2, h3, h4⟩
    simp only [exec, (tell_characterised ws h3).1 h4, h2]
  | seek d off =>
    simp only [Spec.exec] at h
    split at h
    · next hz =>
      simp only [Option.some.injEq, Prod.mk.injEq] at h
      obtain ⟨rfl, rfl⟩ := h
      have et : whereTo s.pos s.text.length d off = Spec.target f d off := by
        cases d <;> simp [whereTo, Spec.target, h1, h2]
      refine ⟨{ s with pos := (Spec.target f d off).toNat }, ?_, h1, rfl, h3, h4⟩
      have hg' : ({ s with pos := (Spec.target f d off).toNat } : In A).good = true := h3
      have : seek ws s d off = ((Spec.target f d off : Int), { s with pos := (Spec.target f d off).toNat }) := by
        unfold seek
        rw [sentry_plain h3 h4]
        dsimp only
        rw [et, seeks hz, (tell_characterised ws hg').1 h4]
        simp only [Prod.mk.injEq, and_true]
        omega
      simp only [exec, this]
    · simp at h
  | seekTo p =>
    simp only [Spec.exec] at h
    split at h
    · next hz =>
      simp only [Option.some.injEq, Prod.mk.injEq] at h
      obtain ⟨rfl, rfl⟩ := h
      exact ⟨{ s with pos := p.toNat }, by simp only [exec, seekTo, seeks hz], h1, rfl, h3, h4⟩
    · simp at h
  | sync =>
    simp only [Spec.exec, Option.some.injEq, Prod.mk.injEq] at h
    obtain ⟨rfl, rfl⟩ := h
    exact ⟨s, by simp only [exec, sync, sentry_no h3], h1, h2, h3, h4⟩

/-- C201, part: a stream that does not skip white space is a file, in every history that neither reads beyond the end nor seeks out of
the text.  What is missing: streams as they are made (`read_characterised`, `tell_characterised`), and what follows a read
beyond the end (`dead_refuted`). -/
theorem file_partial (ws : A → Bool) (os : List Op) : ∀ {s : In A} {f f' : Spec.File A} {rs : List (Res A)}, Is s f →
    Spec.run f os = some (rs, f') → ∃ s', run ws s os = (rs, s') ∧ Is s' f' := by
  induction os with
  | nil =>
    intro s f f' rs hi h
    simp only [Spec.run, Option.some.injEq, Prod.mk.injEq] at h
    obtain ⟨rfl, rfl⟩ := h
    exact ⟨s, rfl, hi⟩
  | cons o os ih =>
    intro s f f' rs hi h
    simp only [Spec.run, Option.bind_eq_some_iff, Option.map_eq_some_iff, Prod.mk.injEq] at h
    obtain ⟨⟨r, f1⟩, e1, ⟨q, f2⟩, e2, rfl, rfl⟩ := h
    obtain ⟨s1, g1, i1⟩ := exec_is ws hi e1
    obtain ⟨s2, g2, i2⟩ := ih i1 e2
    exact ⟨s2, by simp only [run, g1, g2], i2⟩

example : Spec.run (⟨[1, 2, 3, 4], 0⟩ : Spec.File Nat) [.read 2, .tell, .seek .fin (-1), .read 1, .seekTo 1, .read 2] =
    some ([.text [1, 2], .num 2, .num 3, .text [4], .done, .text [2, 3]], ⟨[1, 2, 3, 4], 3⟩) := by decide

/-! ### C202: writing -/

theorem outGood_iff (s : Out A) : s.good = true ↔ s.fail = false ∧ s.bad = false := by
  unfold Out.good
  cases s.fail <;> cases s.bad <;> simp

theorem outSentry_good {s : Out A} (hg : s.good = true) : outSentry s = (true, s) := by simp [outSentry, hg]

theorem outSentry_dead {s : Out A} (hg : s.good = false) : outSentry s = (false, { s with fail := true }) := by
  simp [outSentry, hg]

/-- **C202 (`write`), exactly**, of a stream without an error: as much as fits is written over what is there, and the stream has an error
afterwards if and only if not all of it fits. -/
theorem write_characterised {s : Out A} (hg : s.good = true) (data : List A) :
    (write s data).text = s.text.take s.pos ++ data.take (s.cap - s.pos) ++
        s.text.drop (s.pos + (data.take (s.cap - s.pos)).length) ∧
      (write s data).pos = s.pos + (data.take (s.cap - s.pos)).length ∧ (write s data).cap = s.cap ∧
      ((write s data).good = true ↔ data.length ≤ s.cap - s.pos) := by
  have hl : (data.take (s.cap - s.pos)).length = data.length ↔ data.length ≤ s.cap - s.pos := by
    rw [List.length_take]; omega
  unfold write
  rw [outSentry_good hg]
  dsimp only [stdWrite]
  rw [outSentry_good hg]
  dsimp only
  by_cases h : (data.take (s.cap - s.pos)).length = data.length
  · rw [if_pos h]
    exact ⟨rfl, rfl, rfl, fun _ => hl.1 h, fun _ => hg⟩
  · rw [if_neg h]
    exact ⟨rfl, rfl, rfl, fun hb => by simp [Out.good] at hb, fun hb => absurd (hl.2 hb) h⟩

/-- **C202 (`seek`, `seek_to` of output), exactly**, of a stream without an error: inside the text they go there, elsewhere the stream
has an error afterwards; the text stays. -/
theorem out_seek_characterised {s : Out A} (hg : s.good = true) (p : Int) (d : Dir) (off : Int) :
    (outSeekTo s p).text = s.text ∧ ((outSeekTo s p).good = true ↔ 0 ≤ p ∧ p ≤ s.text.length) ∧
      ((outSeekTo s p).good = true → ((outSeekTo s p).pos : Int) = p) ∧
      (outSeek s d off).2.text = s.text ∧
      (outSeek s d off).1 = if 0 ≤ whereTo s.pos s.text.length d off ∧ whereTo s.pos s.text.length d off ≤ s.text.length
        then whereTo s.pos s.text.length d off else -1 := by
  obtain ⟨a, b⟩ := (outGood_iff s).1 hg
  have e : ∀ z : Int, stdSeekp s z = if 0 ≤ z ∧ z ≤ s.text.length then { s with pos := z.toNat } else { s with fail := true } := by
    intro z
    unfold stdSeekp
    rw [outSentry_good hg]
  unfold outSeekTo
  rw [e p]
  have k : (outSeek s d off) = outTell (stdSeekp s (whereTo s.pos s.text.length d off)) := by
    unfold outSeek
    rw [outSentry_good hg]
  rw [k, e]
  refine ⟨?_, ?_, ?_, ?_, ?_⟩
  · split_ifs <;> rfl
  · split_ifs with h
    · exact ⟨fun _ => h, fun _ => hg⟩
    · exact ⟨fun h' => by simp [Out.good] at h', fun h' => absurd h' h⟩
  · split_ifs with h
    · intro _; show ((p.toNat : Nat) : Int) = p; omega
    · intro h'; simp [Out.good] at h'
  · split_ifs with h <;> unfold outTell outSentry <;> simp [Out.good, a, b]
  · split_ifs with h <;> unfold outTell outSentry <;> simp [Out.good, a, b]
    omega

example : (outSeekTo (⟨[1, 2], 0, 9, false, false⟩ : Out Nat) 3).good = false ∧
    (outSeek (⟨[1, 2], 0, 9, false, false⟩ : Out Nat) .fin (-1)).1 = 1 := by decide

/-- C202 is false of the program: after a write that did not fit, or a seek out of the text, nothing is ever written again, and no
call says so: the writes have no result. -/
theorem out_dead_refuted (os : List (OutOp A)) : ∀ {s : Out A}, s.good = false →
    (outRun s os).2.text = s.text ∧ (outRun s os).2.good = false ∧ ∀ r ∈ (outRun s os).1, r = none ∨ r = some (-1) := by
  induction os with
  | nil => intro s h; exact ⟨rfl, h, by simp [outRun]⟩
  | cons o os ih =>
    intro s h
    have key : (outExec s o).2.text = s.text ∧ (outExec s o).2.good = false ∧ ((outExec s o).1 = none ∨ (outExec s o).1 = some (-1)) := by
      cases o with
      | write d => simp [outExec, write, outSentry_dead h, Out.good]
      | tell => simp [outExec, outTell, outSentry_dead h, Out.good]
      | seek d off => simp [outExec, outSeek, outSentry_dead h, Out.good]
      | seekTo p => simp [outExec, outSeekTo, stdSeekp, outSentry_dead h, Out.good]
    obtain ⟨k1, k2, k3⟩ := key
    obtain ⟨i1, i2, i3⟩ := ih k2
    refine ⟨i1.trans k1, i2, ?_⟩
    intro r hr
    rw [outRun] at hr
    rcases List.mem_cons.1 hr with rfl | hr
    · exact k3
    · exact i3 r hr

-- three characters, of which two fit, and then one more
example : (outRun (⟨[], 0, 2, false, false⟩ : Out Nat) [.write [1, 2, 3], .seek .beg 0, .write [4]]).2.text = [1, 2] := by decide

structure OutIs (cap : Nat) (s : Out A) (f : Spec.File A) : Prop where
  text : s.text = f.text
  pos : s.pos = f.pos
  cap : s.cap = cap
  good : s.good = true

theorem outExec_is {cap : Nat} {s : Out A} {f f' : Spec.File A} {r : Option Int} (hi : OutIs cap s f) {o : OutOp A}
    (h : Spec.outExec cap f o = some (r, f')) : ∃ s', outExec s o = (r, s') ∧ OutIs cap s' f' := by
  obtain ⟨h1, h2, h3, h4⟩ := hi
  have seeks : ∀ {z : Int}, 0 ≤ z ∧ z ≤ f.text.length → stdSeekp s z = { s with pos := z.toNat } := by
    intro z hz
    unfold stdSeekp
    rw [outSentry_good h4]
    exact if_pos (by rw [h1]; exact hz)
  have tells : ∀ {t : Out A}, t.good = true → outTell t = ((t.pos : Int), t) := by
    intro t ht
    obtain ⟨a, b⟩ := (outGood_iff t).1 ht
    unfold outTell
    rw [outSentry_good ht]
    simp [a, b]
  cases o with
  | write d =>
    simp only [Spec.outExec] at h
    split at h
    · next hn =>
      simp only [Option.some.injEq, Prod.mk.injEq] at h
      obtain ⟨rfl, rfl⟩ := h
      have hle : d.length ≤ s.cap - s.pos := by rw [h3, h2]; omega
      obtain ⟨w1, w2, w3, w4⟩ := write_characterised h4 d
      rw [List.take_of_length_le hle] at w1 w2
      exact ⟨write s d, rfl, by rw [w1, h1, h2], by rw [w2, h2], w3.trans h3, w4.2 hle⟩
    · simp at h
  | tell =>
    simp only [Spec.outExec, Option.some.injEq, Prod.mk.injEq] at h
    obtain ⟨rfl, rfl⟩ := h
    exact ⟨s, by simp only [outExec, tells h4, h2], h1, h2, h3, h4⟩
  | seek d off =>
    simp only [Spec.outExec] at h
    split at h
    · next hz =>
      simp only [Option.some.injEq, Prod.mk.injEq] at h
      obtain ⟨rfl, rfl⟩ := h
      have et : whereTo s.pos s.text.length d off = Spec.target f d off := by
        cases d <;> simp [whereTo, Spec.target, h1, h2]
      have hg' : ({ s with pos := (Spec.target f d off).toNat } : Out A).good = true := h4
      refine ⟨{ s with pos := (Spec.target f d off).toNat }, ?_, h1, rfl, h3, h4⟩
      have : outSeek s d off = ((Spec.target f d off : Int), { s with pos := (Spec.target f d off).toNat }) := by
        unfold outSeek
        rw [outSentry_good h4]
        dsimp only
        rw [et, seeks hz, tells hg']
        simp only [Prod.mk.injEq, and_true]
        omega
      simp only [outExec, this]
    · simp at h
  | seekTo p =>
    simp only [Spec.outExec] at h
    split at h
    · next hz =>
      simp only [Option.some.injEq, Prod.mk.injEq] at h
      obtain ⟨rfl, rfl⟩ := h
      exact ⟨{ s with pos := p.toNat }, by simp only [outExec, outSeekTo, seeks hz], h1, rfl, h3, h4⟩
    · simp at h

/-- C202, part: the stream is a file in every history in which everything fits and no seek leads out of the text.  What is missing:
`out_dead_refuted`. -/
theorem out_file_partial {cap : Nat} (os : List (OutOp A)) : ∀ {s : Out A} {f f' : Spec.File A} {rs : List (Option Int)},
    OutIs cap s f → Spec.outRun cap f os = some (rs, f') → ∃ s', outRun s os = (rs, s') ∧ OutIs cap s' f' := by
  induction os with
  | nil =>
    intro s f f' rs hi h
    simp only [Spec.outRun, Option.some.injEq, Prod.mk.injEq] at h
    obtain ⟨rfl, rfl⟩ := h
    exact ⟨s, rfl, hi⟩
  | cons o os ih =>
    intro s f f' rs hi h
    simp only [Spec.outRun, Option.bind_eq_some_iff, Option.map_eq_some_iff, Prod.mk.injEq] at h
    obtain ⟨⟨r, f1⟩, e1, ⟨q, f2⟩, e2, rfl, rfl⟩ := h
    obtain ⟨s1, g1, i1⟩ := outExec_is hi e1
    obtain ⟨s2, g2, i2⟩ := ih i1 e2
    exact ⟨s2, by simp only [outRun, g1, g2], i2⟩

example : Spec.outRun 9 (⟨[], 0⟩ : Spec.File Nat) [.write [1, 2, 3, 4], .seek .cur (-3), .write [7], .tell, .seek .fin 0, .write [5]] =
    some ([none, some 1, none, some 2, some 4, none], ⟨[1, 7, 3, 4, 5], 5⟩) := by decide

end ELC.Stdwrap
