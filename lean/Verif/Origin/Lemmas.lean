import Verif.Origin.Spec
/-! Lemmas for Props. -/
namespace ELC.Origin
open Spec (place)

def flags : List (Option Loc) → List Bool
  | [] => []
  | c :: cs => (c.isSome && (place cs).isNone) :: flags cs

structure Inv (s : St) (t : Spec.State) : Prop where
  frame : s.frame = place t.ops
  guards : s.guards = flags t.ops
  line : s.line = 0 ∨ ∃ l, s.frame = some l ∧ s.line = l.line
  ptr : s.filePtr = none ∨ s.filePtr = some s.buf
  lines : s.blocks.map (·.2) = t.places.map fun o => (o.map (·.line)).getD 0

theorem inv_init : Inv St.init ⟨[], []⟩ := ⟨rfl, rfl, Or.inl rfl, Or.inl rfl, rfl⟩

theorem file_frame (k : Bool) (s : St) : (file k s).frame = s.frame := by unfold file; split <;> rfl
theorem file_guards (k : Bool) (s : St) : (file k s).guards = s.guards := by unfold file; split <;> rfl
theorem file_line (k : Bool) (s : St) : (file k s).line = s.line := by unfold file; split <;> rfl
theorem file_blocks (k : Bool) (s : St) : (file k s).blocks = s.blocks := by unfold file; split <;> rfl
theorem line_frame (s : St) : (line s).frame = s.frame := by unfold line; split <;> rfl
theorem line_guards (s : St) : (line s).guards = s.guards := by unfold line; split <;> rfl
theorem line_blocks (s : St) : (line s).blocks = s.blocks := by unfold line; split <;> rfl
theorem line_ptr (s : St) : (line s).filePtr = s.filePtr := by unfold line; split <;> rfl
theorem line_buf (s : St) : (line s).buf = s.buf := by unfold line; split <;> rfl
theorem line_cache (s : St) : (line s).cache = s.cache := by unfold line; split <;> rfl

theorem file_ptr {k : Bool} {s : St} (h : s.filePtr = none ∨ s.filePtr = some s.buf) :
    (file k s).filePtr = some (file k s).buf := by
  unfold file
  rcases h with h | h <;> rw [h]
  exact h

theorem line_line {s : St} (h : s.line = 0 ∨ ∃ l, s.frame = some l ∧ s.line = l.line) :
    (line s).line = (s.frame.map (·.line)).getD 0 := by
  unfold line
  by_cases h0 : s.line = 0
  · rw [if_pos h0]
  · rw [if_neg h0]
    rcases h with h | ⟨l, h1, h2⟩
    · exact absurd h h0
    · rw [h1, h2]; rfl

theorem place_flag {c : Option Loc} {cs : List (Option Loc)} :
    (c.isSome && (place cs).isNone) = true → place cs = none := by
  cases c <;> cases h : place cs <;> simp

theorem place_noflag {c : Option Loc} {cs : List (Option Loc)} :
    (c.isSome && (place cs).isNone) = false → place (c :: cs) = place cs := by
  intro h
  cases hp : place cs with
  | some l => simp only [place, hp]
  | none =>
    rw [hp] at h
    cases c with
    | none => simp only [place, hp]
    | some l => simp at h

theorem step_inv {s : St} {t t' : Spec.State} {o : Op} (hi : Inv s t) (h : Spec.step t o = some t') :
    ∃ s', step s o = some s' ∧ Inv s' t' := by
  obtain ⟨h1, h2, h3, h4, h5⟩ := hi
  cases o with
  | enter c =>
    simp only [Spec.step, Option.some.injEq] at h
    subst h
    cases hp : place t.ops with
    | some l =>
      refine ⟨{ s with guards := false :: s.guards }, by simp only [step]; rw [h1, hp], ?_⟩
      exact ⟨by simp only [place]; rw [hp]; dsimp only; rw [h1, hp], by simp [flags, hp, h2], h3, h4, h5⟩
    | none =>
      cases c with
      | some l =>
        refine ⟨{ s with frame := some l, guards := true :: s.guards }, by simp only [step]; rw [h1, hp], ?_⟩
        refine ⟨by simp only [place]; rw [hp], by simp [flags, hp, h2], Or.inl ?_, h4, h5⟩
        dsimp only
        rcases h3 with h3 | ⟨l', h6, _⟩
        · exact h3
        · rw [h1, hp] at h6; simp at h6
      | none =>
        refine ⟨{ s with guards := false :: s.guards }, by simp only [step]; rw [h1, hp], ?_⟩
        exact ⟨by simp only [place]; rw [hp]; dsimp only; rw [h1, hp], by simp [flags, h2], h3, h4, h5⟩
  | leave =>
    simp only [Spec.step] at h
    cases ho : t.ops with
    | nil => rw [ho] at h; simp at h
    | cons c cs =>
      rw [ho] at h
      simp only [Option.some.injEq] at h
      subst h
      rw [ho] at h1 h2
      simp only [flags] at h2
      cases hb : (c.isSome && (place cs).isNone) with
      | true =>
        rw [hb] at h2
        refine ⟨{ clear s with frame := none, guards := flags cs }, by simp only [step]; rw [h2]; rfl, ?_⟩
        exact ⟨(place_flag hb).symm, rfl, Or.inl rfl, Or.inl rfl, h5⟩
      | false =>
        rw [hb] at h2
        refine ⟨{ s with guards := flags cs }, by simp only [step]; rw [h2]; rfl, ?_⟩
        exact ⟨by rw [← place_noflag hb]; exact h1, rfl, h3, h4, h5⟩
  | alloc k =>
    simp only [Spec.step, Option.some.injEq] at h
    subst h
    refine ⟨_, rfl, ?_⟩
    have hl : (line (file k s)).line = ((place t.ops).map (·.line)).getD 0 := by
      rw [line_line (by rw [file_line, file_frame]; exact h3), file_frame, h1]
    refine ⟨?_, ?_, ?_, ?_, ?_⟩
    · dsimp only; rw [line_frame, file_frame]; exact h1
    · dsimp only; rw [line_guards, file_guards]; exact h2
    · dsimp only
      rw [hl, line_frame, file_frame, h1]
      cases place t.ops with
      | none => exact Or.inl rfl
      | some l => exact Or.inr ⟨l, rfl, rfl⟩
    · dsimp only
      rw [line_ptr, line_buf]
      exact Or.inr (file_ptr h4)
    · dsimp only
      rw [line_blocks, file_blocks, List.map_cons, List.map_cons, h5, hl]

theorem run_inv (os : List Op) : ∀ {s : St} {t t' : Spec.State}, Inv s t → Spec.run t os = some t' →
    ∃ s', run s os = some s' ∧ Inv s' t' := by
  induction os with
  | nil => intro s t t' hi h; simp only [Spec.run, Option.some.injEq] at h; subst h; exact ⟨s, rfl, hi⟩
  | cons o os ih =>
    intro s t t' hi h
    simp only [Spec.run] at h
    cases hs : Spec.step t o with
    | none => rw [hs] at h; simp at h
    | some t1 =>
      rw [hs, Option.bind_some] at h
      obtain ⟨s1, e1, hi1⟩ := step_inv hi hs
      obtain ⟨s2, e2, hi2⟩ := ih hi1 h
      exact ⟨s2, by simp only [run, e1, Option.bind_some, e2], hi2⟩

/-- No name of a file is left over from an allocation without a place. -/
def Clean (s : St) : Prop := s.filePtr = none ∨ ∃ l, s.frame = some l ∧ s.cache = l.file

theorem step_places {t t' : Spec.State} {o : Op} (h : Spec.step t o = some t') :
    ∀ p ∈ t.places, p ∈ t'.places := by
  cases o with
  | enter c => simp only [Spec.step, Option.some.injEq] at h; subst h; exact fun p hp => hp
  | leave =>
    simp only [Spec.step] at h
    split at h
    · simp at h
    · simp only [Option.some.injEq] at h; subst h; exact fun p hp => hp
  | alloc k => simp only [Spec.step, Option.some.injEq] at h; subst h; exact fun p hp => List.mem_cons_of_mem _ hp

theorem run_places (os : List Op) : ∀ {t t' : Spec.State}, Spec.run t os = some t' → ∀ p ∈ t.places, p ∈ t'.places := by
  induction os with
  | nil => intro t t' h; simp only [Spec.run, Option.some.injEq] at h; subst h; exact fun p hp => hp
  | cons o os ih =>
    intro t t' h p hp
    simp only [Spec.run] at h
    cases hs : Spec.step t o with
    | none => rw [hs] at h; simp at h
    | some t1 =>
      rw [hs, Option.bind_some] at h
      exact ih h p (step_places hs p hp)

theorem file_clean {k : Bool} {s : St} {l : Loc} (hc : Clean s) (hf : s.frame = some l) : (file k s).cache = l.file := by
  unfold file
  cases hp : s.filePtr with
  | none => simp [hf]
  | some p =>
    rcases hc with h | ⟨l', h1, h2⟩
    · rw [hp] at h; simp at h
    · rw [hf] at h1; injection h1 with h1; subst h1; exact h2

theorem step_clean {s s' : St} {t t' : Spec.State} {o : Op} (hi : Inv s t) (hc : Clean s) (h : Spec.step t o = some t')
    (hs : step s o = some s') (hall : ∀ p ∈ t'.places, p ≠ none) : Clean s' := by
  cases o with
  | enter c =>
    simp only [step] at hs
    cases hf : s.frame with
    | some l =>
      rw [hf] at hs
      simp only [Option.some.injEq] at hs
      subst hs
      rcases hc with h1 | ⟨l', h1, h2⟩
      · exact Or.inl h1
      · exact Or.inr ⟨l', by rw [hf] at h1; exact h1, h2⟩
    | none =>
      rw [hf] at hs
      have hn : s.filePtr = none := by
        rcases hc with h1 | ⟨l, h1, _⟩
        · exact h1
        · rw [hf] at h1; simp at h1
      cases c <;> (simp only [Option.some.injEq] at hs; subst hs; exact Or.inl hn)
  | leave =>
    simp only [step] at hs
    cases hg : s.guards with
    | nil => rw [hg] at hs; simp at hs
    | cons b gs =>
      rw [hg] at hs
      simp only [Option.some.injEq] at hs
      subst hs
      cases b with
      | true => exact Or.inl rfl
      | false => exact hc
  | alloc k =>
    simp only [Spec.step, Option.some.injEq] at h
    subst h
    simp only [step, Option.some.injEq] at hs
    subst hs
    have := hall (place t.ops) (by simp)
    cases hp : place t.ops with
    | none => exact absurd hp this
    | some l =>
      have hf : s.frame = some l := by rw [hi.frame, hp]
      refine Or.inr ⟨l, ?_, ?_⟩
      · dsimp only; rw [line_frame, file_frame]; exact hf
      · dsimp only; rw [line_cache]; exact file_clean hc hf

theorem run_clean (os : List Op) : ∀ {s s' : St} {t t' : Spec.State}, Inv s t → Clean s → Spec.run t os = some t' →
    run s os = some s' → (∀ p ∈ t'.places, p ≠ none) → Clean s' := by
  induction os with
  | nil =>
    intro s s' t t' _ hc _ hs _
    simp only [run, Option.some.injEq] at hs; subst hs; exact hc
  | cons o os ih =>
    intro s s' t t' hi hc h hs hall
    simp only [Spec.run] at h
    cases hst : Spec.step t o with
    | none => rw [hst] at h; simp at h
    | some t1 =>
      rw [hst, Option.bind_some] at h
      obtain ⟨s1, e1, hi1⟩ := step_inv hi hst
      simp only [run, e1, Option.bind_some] at hs
      exact ih hi1 (step_clean hi hc hst e1 fun p hp => hall p (run_places os h p hp)) h hs hall

theorem run_append (os₁ os₂ : List Op) (s : St) : run s (os₁ ++ os₂) = (run s os₁).bind fun s' => run s' os₂ := by
  induction os₁ generalizing s with
  | nil => rfl
  | cons o os ih =>
    simp only [List.cons_append, run]
    cases step s o with
    | none => rfl
    | some s1 => simp only [Option.bind_some]; exact ih s1

theorem spec_run_append (os₁ os₂ : List Op) (s : Spec.State) :
    Spec.run s (os₁ ++ os₂) = (Spec.run s os₁).bind fun s' => Spec.run s' os₂ := by
  induction os₁ generalizing s with
  | nil => rfl
  | cons o os ih =>
    simp only [List.cons_append, Spec.run]
    cases Spec.step s o with
    | none => rfl
    | some s1 => simp only [Option.bind_some]; exact ih s1

/-- Nothing happens to the name of the file without an allocation. -/
theorem run_quiet (os : List Op) : ∀ {s s' : St}, run s os = some s' → (∀ o ∈ os, ∀ k, o ≠ .alloc k) →
    s'.buf = s.buf ∧ s'.cache = s.cache ∧ s'.blocks = s.blocks := by
  induction os with
  | nil => intro s s' h _; simp only [run, Option.some.injEq] at h; subst h; exact ⟨rfl, rfl, rfl⟩
  | cons o os ih =>
    intro s s' h hq
    simp only [run] at h
    cases hs : step s o with
    | none => rw [hs] at h; simp at h
    | some s1 =>
      rw [hs, Option.bind_some] at h
      obtain ⟨g1, g2, g3⟩ := ih h fun o' ho => hq o' (List.mem_cons_of_mem _ ho)
      have : s1.buf = s.buf ∧ s1.cache = s.cache ∧ s1.blocks = s.blocks := by
        cases o with
        | enter c =>
          simp only [step] at hs
          split at hs
          · simp only [Option.some.injEq] at hs; subst hs; exact ⟨rfl, rfl, rfl⟩
          · split at hs <;> (simp only [Option.some.injEq] at hs; subst hs; exact ⟨rfl, rfl, rfl⟩)
        | leave =>
          simp only [step] at hs
          split at hs
          · simp at hs
          · simp only [Option.some.injEq] at hs
            subst hs
            split <;> exact ⟨rfl, rfl, rfl⟩
        | alloc k => exact absurd rfl (hq _ List.mem_cons_self k)
      obtain ⟨f1, f2, f3⟩ := this
      exact ⟨by rw [g1, f1], by rw [g2, f2], by rw [g3, f3]⟩

/-- While the outermost operation goes on, the name of its file stays where it is. -/
theorem run_goesOn (os : List Op) : ∀ {s s' : St} {t : Spec.State}, Inv s t → s.filePtr = some s.buf → place t.ops ≠ none →
    Spec.goesOn t os → run s os = some s' → s'.buf = s.buf ∧ s'.cache = s.cache ∧ s.blocks <:+ s'.blocks := by
  induction os with
  | nil =>
    intro s s' t _ _ _ _ h
    simp only [run, Option.some.injEq] at h; subst h; exact ⟨rfl, rfl, List.suffix_refl _⟩
  | cons o os ih =>
    intro s s' t hi hp hn hg h
    obtain ⟨t1, ht1, hn1, hg1⟩ := hg
    obtain ⟨s1, e1, hi1⟩ := step_inv hi ht1
    simp only [run, e1, Option.bind_some] at h
    have key : s1.filePtr = some s1.buf ∧ s1.buf = s.buf ∧ s1.cache = s.cache ∧ s.blocks <:+ s1.blocks := by
      cases o with
      | enter c =>
        simp only [step] at e1
        split at e1
        · simp only [Option.some.injEq] at e1; subst e1; exact ⟨hp, rfl, rfl, List.suffix_refl _⟩
        · split at e1 <;> (simp only [Option.some.injEq] at e1; subst e1; exact ⟨hp, rfl, rfl, List.suffix_refl _⟩)
      | leave =>
        simp only [step] at e1
        split at e1
        · simp at e1
        · next b gs hgs =>
          simp only [Option.some.injEq] at e1
          cases b with
          | true =>
            have := hi1.frame
            subst e1
            exact absurd this.symm hn1
          | false => subst e1; exact ⟨hp, rfl, rfl, List.suffix_refl _⟩
      | alloc k =>
        simp only [step, Option.some.injEq] at e1
        have hfile : file k s = s := by unfold file; rw [hp]
        subst e1
        dsimp only
        rw [hfile]
        exact ⟨by rw [line_ptr, line_buf]; exact hp, line_buf s, line_cache s, by rw [line_blocks]; exact List.suffix_cons _ _⟩
    obtain ⟨k1, k2, k3, k4⟩ := key
    obtain ⟨g1, g2, g3⟩ := ih hi1 k1 hn1 hg1 h
    exact ⟨by rw [g1, k2], by rw [g2, k3], k4.trans g3⟩

end ELC.Origin
