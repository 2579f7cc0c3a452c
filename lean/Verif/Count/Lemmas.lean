import Verif.Count.Spec
import Mathlib.Algebra.BigOperators.Group.List.Basic
/-! Lemmas for Props. -/
namespace ELC.Count

theorem sum_eraseIdx : ∀ (l : List Nat) (k : Nat) (h : k < l.length), (l.eraseIdx k).sum + l[k] = l.sum
  | a :: l, 0, _ => by simp [Nat.add_comm]
  | a :: l, k + 1, h => by
    have := sum_eraseIdx l k (by simpa using h)
    simp only [List.eraseIdx_cons_succ, List.sum_cons, List.getElem_cons_succ]
    omega

theorem sum_set : ∀ (l : List Nat) (k a : Nat) (h : k < l.length), (l.set k a).sum + l[k] = l.sum + a
  | b :: l, 0, a, _ => by simp; omega
  | b :: l, k + 1, a, h => by
    have := sum_set l k a (by simpa using h)
    simp only [List.set_cons_succ, List.sum_cons, List.getElem_cons_succ]
    omega

theorem sum_zero (l : List Nat) : l.sum = 0 ↔ ∀ b ∈ l, b = 0 := by
  induction l with
  | nil => simp
  | cons a l ih =>
    rw [List.sum_cons, List.forall_mem_cons, ← ih]
    omega

structure Inv (s : St) (t : Spec.State) : Prop where
  blocks : s.blocks = t.blocks
  fits : t.blocks.sum < M
  use : s.inUse = t.blocks.sum
  peak : s.inUseMax = t.peak
  sizes : s.allocSize % M = (s.freeSize + t.blocks.sum) % M
  counts : s.allocCount % M = (s.freeCount + t.blocks.length) % M

theorem inv_init : Inv St.init ⟨[], 0⟩ := ⟨rfl, by decide, rfl, rfl, rfl, rfl⟩

theorem ite_max (u p : Nat) : (if u > p then u else p) = max p u := by split <;> omega

theorem become_some {t t' : Spec.State} {b : List Nat} (h : Spec.become t b = some t') :
    b.sum < M ∧ t' = ⟨b, max t.peak b.sum⟩ := by
  unfold Spec.become at h
  split at h
  · next hb => exact ⟨hb, (Option.some.inj h).symm⟩
  · simp at h

theorem step_inv {s : St} {t t' : Spec.State} {o : Op} (hi : Inv s t) (h : Spec.step t o = some t') :
    ∃ s', step s o = some s' ∧ Inv s' t' := by
  obtain ⟨h1, h2, h3, h4, h5, h6⟩ := hi
  cases o with
  | alloc size ok =>
    simp only [Spec.step] at h
    cases ok with
    | false =>
      simp only [Bool.false_eq_true, if_false, Option.some.injEq] at h
      subst h
      exact ⟨s, rfl, h1, h2, h3, h4, h5, h6⟩
    | true =>
      rw [if_pos rfl] at h
      obtain ⟨hb, rfl⟩ := become_some h
      refine ⟨_, rfl, ?_⟩
      have hs : (t.blocks ++ [size]).sum = t.blocks.sum + size := by simp
      have hu : (s.inUse + size) % M = t.blocks.sum + size := by rw [h3]; exact Nat.mod_eq_of_lt (by omega)
      refine ⟨?_, hb, ?_, ?_, ?_, ?_⟩
      · simp only [if_true, update, h1]
      · simp only [if_true, update]; rw [hu, hs]
      · simp only [if_true, update, ite_max]; rw [hu, h4, hs]
      · simp only [if_true, update]; rw [hs]; unfold M at *; omega
      · simp only [if_true, update, List.length_append, List.length_singleton]; unfold M at *; omega
  | realloc k size ok =>
    simp only [Spec.step] at h
    by_cases hk : k < t.blocks.length
    · rw [if_pos hk] at h
      have hget : s.blocks[k]? = some t.blocks[k] := by rw [h1]; exact List.getElem?_eq_getElem hk
      cases ok with
      | false =>
        simp only [Bool.false_eq_true, if_false, Option.some.injEq] at h
        subst h
        exact ⟨s, by simp only [step, hget]; rfl, h1, h2, h3, h4, h5, h6⟩
      | true =>
        rw [if_pos rfl] at h
        obtain ⟨hb, rfl⟩ := become_some h
        refine ⟨_, by simp only [step, hget]; rfl, ?_⟩
        have hset := sum_set t.blocks k size hk
        have her := sum_eraseIdx t.blocks k hk
        have hu : (s.inUse + (size + M - t.blocks[k]) % M) % M = (t.blocks.set k size).sum := by
          rw [h3]; unfold M at *; omega
        refine ⟨?_, hb, ?_, ?_, ?_, ?_⟩
        · simp only [if_true, update, h1]
        · simp only [if_true, update]; exact hu
        · simp only [if_true, update, ite_max]; rw [hu, h4]
        · simp only [if_true, update]; unfold M at *; omega
        · simp only [if_true, update, List.length_set]; exact h6
    · rw [if_neg hk] at h; simp at h
  | free k =>
    simp only [Spec.step] at h
    by_cases hk : k < t.blocks.length
    · rw [if_pos hk] at h
      obtain ⟨hb, rfl⟩ := become_some h
      have hget : s.blocks[k]? = some t.blocks[k] := by rw [h1]; exact List.getElem?_eq_getElem hk
      refine ⟨_, by simp only [step, hget]; rfl, ?_⟩
      have her := sum_eraseIdx t.blocks k hk
      have hu : (s.inUse + (M - t.blocks[k]) % M) % M = (t.blocks.eraseIdx k).sum := by
        rw [h3]; unfold M at *; omega
      have hl := List.length_eraseIdx_add_one hk
      refine ⟨?_, hb, ?_, ?_, ?_, ?_⟩
      · simp only [update, h1]
      · simp only [update]; exact hu
      · simp only [update, ite_max]; rw [hu, h4]
      · simp only [update]; unfold M at *; omega
      · simp only [update]; unfold M at *; omega
    · rw [if_neg hk] at h; simp at h
  | clear =>
    simp only [Spec.step] at h
    by_cases hb : t.blocks = []
    · rw [if_pos hb] at h
      simp only [Option.some.injEq] at h
      subst h
      exact ⟨_, rfl, by rw [h1, hb], by decide, rfl, rfl, rfl, rfl⟩
    · rw [if_neg hb] at h; simp at h

theorem run_inv (os : List Op) : ∀ {s : St} {t t' : Spec.State}, Inv s t → Spec.run t os = some t' →
    ∃ s', run s os = some s' ∧ Inv s' t' := by
  induction os with
  | nil => intro s t t' hi h; simp only [Spec.run, Option.some.injEq] at h; subst h; exact ⟨s, rfl, hi⟩
  | cons o os ih =>
    intro s t t' hi h
    simp only [Spec.run] at h
    cases hs : Spec.step t o with
    | none => rw [hs] at h; simp at h
    | some t1 =>
      rw [hs, Option.bind_some] at h
      obtain ⟨s1, e1, hi1⟩ := step_inv hi hs
      obtain ⟨s2, e2, hi2⟩ := ih hi1 h
      exact ⟨s2, by simp only [run, e1, Option.bind_some, e2], hi2⟩

structure InvS (s : St) (t : Spec.Since) : Prop where
  blocks : s.blocks = t.blocks
  fits : t.blocks.sum < M
  fitsB : t.base.sum < M
  use : s.inUse = Spec.more t.base t.blocks
  peak : s.inUseMax = t.peak
  sizes : (s.allocSize + t.base.sum) % M = (s.freeSize + t.blocks.sum) % M
  counts : (s.allocCount + t.base.length) % M = (s.freeCount + t.blocks.length) % M

theorem becomeSince_some {t t' : Spec.Since} {b : List Nat} (h : Spec.becomeSince t b = some t') :
    b.sum < M ∧ t' = ⟨b, t.base, max t.peak (Spec.more t.base b)⟩ := by
  unfold Spec.becomeSince at h
  split at h
  · next hb => exact ⟨hb, (Option.some.inj h).symm⟩
  · simp at h

theorem stepSince_inv {s : St} {t t' : Spec.Since} {o : Op} (hi : InvS s t) (h : Spec.stepSince t o = some t') :
    ∃ s', step s o = some s' ∧ InvS s' t' := by
  obtain ⟨h1, h2, h2', h3, h4, h5, h6⟩ := hi
  cases o with
  | alloc size ok =>
    simp only [Spec.stepSince] at h
    cases ok with
    | false =>
      simp only [Bool.false_eq_true, if_false, Option.some.injEq] at h
      subst h
      exact ⟨s, rfl, h1, h2, h2', h3, h4, h5, h6⟩
    | true =>
      rw [if_pos rfl] at h
      obtain ⟨hb, rfl⟩ := becomeSince_some h
      refine ⟨_, rfl, ?_⟩
      have hs : (t.blocks ++ [size]).sum = t.blocks.sum + size := by simp
      have hu : (s.inUse + size) % M = Spec.more t.base (t.blocks ++ [size]) := by
        rw [h3]; unfold Spec.more; rw [hs] at hb ⊢; unfold M at *; split <;> split <;> omega
      refine ⟨?_, hb, h2', ?_, ?_, ?_, ?_⟩
      · simp only [if_true, update, h1]
      · simp only [if_true, update]; rw [hu]
      · simp only [if_true, update, ite_max]; rw [hu, h4]
      · simp only [if_true, update]; rw [hs]; unfold M at *; omega
      · simp only [if_true, update, List.length_append, List.length_singleton]; unfold M at *; omega
  | realloc k size ok =>
    simp only [Spec.stepSince] at h
    by_cases hk : k < t.blocks.length
    · rw [if_pos hk] at h
      have hget : s.blocks[k]? = some t.blocks[k] := by rw [h1]; exact List.getElem?_eq_getElem hk
      cases ok with
      | false =>
        simp only [Bool.false_eq_true, if_false, Option.some.injEq] at h
        subst h
        exact ⟨s, by simp only [step, hget]; rfl, h1, h2, h2', h3, h4, h5, h6⟩
      | true =>
        rw [if_pos rfl] at h
        obtain ⟨hb, rfl⟩ := becomeSince_some h
        refine ⟨_, by simp only [step, hget]; rfl, ?_⟩
        have hset := sum_set t.blocks k size hk
        have her := sum_eraseIdx t.blocks k hk
        have hu : (s.inUse + (size + M - t.blocks[k]) % M) % M = Spec.more t.base (t.blocks.set k size) := by
          rw [h3]; unfold Spec.more; unfold M at *; split <;> split <;> omega
        refine ⟨?_, hb, h2', ?_, ?_, ?_, ?_⟩
        · simp only [if_true, update, h1]
        · simp only [if_true, update]; exact hu
        · simp only [if_true, update, ite_max]; rw [hu, h4]
        · simp only [if_true, update]; unfold M at *; omega
        · simp only [if_true, update, List.length_set]; exact h6
    · rw [if_neg hk] at h; simp at h
  | free k =>
    simp only [Spec.stepSince] at h
    by_cases hk : k < t.blocks.length
    · rw [if_pos hk] at h
      obtain ⟨hb, rfl⟩ := becomeSince_some h
      have hget : s.blocks[k]? = some t.blocks[k] := by rw [h1]; exact List.getElem?_eq_getElem hk
      refine ⟨_, by simp only [step, hget]; rfl, ?_⟩
      have her := sum_eraseIdx t.blocks k hk
      have hu : (s.inUse + (M - t.blocks[k]) % M) % M = Spec.more t.base (t.blocks.eraseIdx k) := by
        rw [h3]; unfold Spec.more; unfold M at *; split <;> split <;> omega
      have hl := List.length_eraseIdx_add_one hk
      refine ⟨?_, hb, h2', ?_, ?_, ?_, ?_⟩
      · simp only [update, h1]
      · simp only [update]; exact hu
      · simp only [update, ite_max]; rw [hu, h4]
      · simp only [update]; unfold M at *; omega
      · simp only [update]; unfold M at *; omega
    · rw [if_neg hk] at h; simp at h
  | clear =>
    simp only [Spec.stepSince, Option.some.injEq] at h
    subst h
    exact ⟨_, rfl, h1, h2, h2, by simp [Spec.more], rfl, by simp, by simp⟩

theorem runSince_inv (os : List Op) : ∀ {s : St} {t t' : Spec.Since}, InvS s t → Spec.runSince t os = some t' →
    ∃ s', run s os = some s' ∧ InvS s' t' := by
  induction os with
  | nil => intro s t t' hi h; simp only [Spec.runSince, Option.some.injEq] at h; subst h; exact ⟨s, rfl, hi⟩
  | cons o os ih =>
    intro s t t' hi h
    simp only [Spec.runSince] at h
    cases hs : Spec.stepSince t o with
    | none => rw [hs] at h; simp at h
    | some t1 =>
      rw [hs, Option.bind_some] at h
      obtain ⟨s1, e1, hi1⟩ := stepSince_inv hi hs
      obtain ⟨s2, e2, hi2⟩ := ih hi1 h
      exact ⟨s2, by simp only [run, e1, Option.bind_some, e2], hi2⟩

structure Tallied (s : St) (t : Spec.Tally) : Prop where
  blocks : s.blocks = t.blocks
  fits : ∀ b ∈ t.blocks, b < M
  allocs : s.allocCount = t.allocs % M
  frees : s.freeCount = t.frees % M
  got : (s.allocSize : Int) = t.got % (M : Int)
  given : (s.freeSize : Int) = t.given % (M : Int)

theorem step_tally {s : St} {t : Spec.Tally} {o : Op} (hi : Tallied s t) (hf : Spec.Fits o) :
    (∃ s' t', step s o = some s' ∧ Spec.stepTally t o = some t' ∧ Tallied s' t') ∨
      (step s o = none ∧ Spec.stepTally t o = none) := by
  obtain ⟨h1, h2, h3, h4, h5, h6⟩ := hi
  cases o with
  | alloc size ok =>
    left
    cases ok with
    | false => exact ⟨s, t, rfl, rfl, h1, h2, h3, h4, h5, h6⟩
    | true =>
      have hf : size < M := hf
      refine ⟨_, _, rfl, rfl, ?_⟩
      simp only [if_true, update]
      refine ⟨by rw [h1], ?_, ?_, h4, ?_, h6⟩
      · intro b hb
        rcases List.mem_append.1 hb with hb | hb
        · exact h2 b hb
        · rw [List.mem_singleton.1 hb]; exact hf
      · simp only [M] at *; omega
      · simp only [M] at *; omega
  | realloc k size ok =>
    by_cases hk : k < t.blocks.length
    · left
      have e2 : t.blocks[k]? = some t.blocks[k] := List.getElem?_eq_getElem hk
      have e1 : s.blocks[k]? = some t.blocks[k] := by rw [h1]; exact e2
      have hb := h2 t.blocks[k] (List.getElem_mem hk)
      cases ok with
      | false => exact ⟨s, t, by simp [step, e1], by simp [Spec.stepTally, e2], h1, h2, h3, h4, h5, h6⟩
      | true =>
        have hf : size < M := hf
        refine ⟨_, _, by simp only [step, e1, Option.map_some]; rfl,
          by simp only [Spec.stepTally, e2, Option.map_some]; rfl, ?_⟩
        simp only [if_true, update]
        refine ⟨by rw [h1], ?_, h3, h4, ?_, h6⟩
        · intro b hb
          rcases List.mem_or_eq_of_mem_set hb with hb | hb
          · exact h2 b hb
          · rw [hb]; exact hf
        · simp only [M] at *; omega
    · right
      have e2 : t.blocks[k]? = none := List.getElem?_eq_none (by omega)
      have e1 : s.blocks[k]? = none := by rw [h1]; exact e2
      exact ⟨by simp [step, e1], by simp [Spec.stepTally, e2]⟩
  | free k =>
    by_cases hk : k < t.blocks.length
    · left
      have e2 : t.blocks[k]? = some t.blocks[k] := List.getElem?_eq_getElem hk
      have e1 : s.blocks[k]? = some t.blocks[k] := by rw [h1]; exact e2
      refine ⟨_, _, by simp only [step, e1, Option.map_some]; rfl,
        by simp only [Spec.stepTally, e2, Option.map_some]; rfl, ?_⟩
      simp only [update]
      refine ⟨by rw [h1], fun b hb => h2 b (List.mem_of_mem_eraseIdx hb), h3, ?_, h5, ?_⟩
      · simp only [M] at *; omega
      · simp only [M] at *; omega
    · right
      have e2 : t.blocks[k]? = none := List.getElem?_eq_none (by omega)
      have e1 : s.blocks[k]? = none := by rw [h1]; exact e2
      exact ⟨by simp [step, e1], by simp [Spec.stepTally, e2]⟩
  | clear => exact .inl ⟨_, _, rfl, rfl, h1, h2, (Nat.zero_mod M).symm, (Nat.zero_mod M).symm, (Int.zero_emod _).symm, (Int.zero_emod _).symm⟩

theorem run_tally : ∀ (os : List Op) {s : St} {t : Spec.Tally}, Tallied s t → (∀ o ∈ os, Spec.Fits o) →
    (∃ s' t', run s os = some s' ∧ Spec.runTally t os = some t' ∧ Tallied s' t') ∨
      (run s os = none ∧ Spec.runTally t os = none)
  | [], s, t, hi, _ => .inl ⟨s, t, rfl, rfl, hi⟩
  | o :: os, s, t, hi, hf => by
    rcases step_tally hi (hf o (by simp)) with ⟨s1, t1, e1, e2, hi1⟩ | ⟨e1, e2⟩
    · have := run_tally os hi1 (fun x hx => hf x (by simp [hx]))
      simp only [run, Spec.runTally, e1, e2, Option.bind_some]
      exact this
    · exact .inr ⟨by simp [run, e1], by simp [Spec.runTally, e2]⟩

end ELC.Count
