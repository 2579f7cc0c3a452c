import Verif.Func.Steps

namespace ELC.Func

theorem callAt_here (K : Kinds) {s s' : State} {c a : Nat} {o : Obs} (h : s.callAt K c a = .done s' o) :
    s'.here = s.here ∧ s'.global = s.global := by
  unfold State.callAt at h
  split at h
  · split at h
    · cases h; exact ⟨rfl, rfl⟩
    · cases h
  · cases h

theorem global_step (K : Kinds) {s s' : State} {op : Op} {o : Obs} (hi : Inv s) (h : step K s op = .done s' o) (t : Nat)
    (hr : ¬ Passive K t s op) : s'.global = s.global ∧ s'.here t = s.here t := by
  have hm : ∀ u, ¬ Remakes K s u op := fun u hu => hr (.inl ⟨u, hu⟩)
  have hread : ∀ {x : Nat} {f : Nat → Cell → Out}, s.read x f = .done s' o →
      ∃ c d, s.var x = some c ∧ s.cells[c]? = some d ∧ f c d = .done s' o := by
    intro x f h
    unfold State.read at h
    split at h
    · rename_i c hc
      split at h
      · rename_i d hd
        split at h
        · exact ⟨c, d, hc, hd, h⟩
        · cases h
      · cases h
    · cases h
  cases op with
  | toPtr u x =>
    simp only [step] at h
    obtain ⟨c, d, hc, hd, h⟩ := hread h
    split at h
    · cases h; exact ⟨rfl, rfl⟩
    · rename_i hp
      exfalso
      refine hm u ⟨rfl, fun p hpv => ?_⟩
      unfold World.value at hpv
      rw [show s.world.named x = some c from hc] at hpv
      simp only [Option.bind_some, thing hd, Option.some.injEq] at hpv
      rw [← hpv]; exact hp
  | callPtr u a =>
    have hut : u ≠ t := fun e => hr (.inr ⟨a, by rw [e]⟩)
    simp only [step] at h
    change (match s.target u with
      | some c => { s with here := fun v => if v = u then some c else s.here v }.callAt K c a
      | none => .undefined) = _ at h
    cases hm : s.target u with
    | none => rw [hm] at h; cases h
    | some c =>
      rw [hm] at h
      obtain ⟨h1, h2⟩ := callAt_here K h
      rw [h1, h2]
      exact ⟨rfl, by simp [Ne.symm hut]⟩
  | call x a =>
    simp only [step] at h
    split at h
    · obtain ⟨h1, h2⟩ := callAt_here K h; rw [h1, h2]; exact ⟨rfl, rfl⟩
    · cases h
  | leave k a =>
    simp only [step] at h
    split at h
    · obtain ⟨h1, h2⟩ := callAt_here K h; rw [h1, h2]; exact ⟨rfl, rfl⟩
    · cases h
  | empty => simp only [step, Out.done.injEq] at h; obtain ⟨rfl, _⟩ := h; simp [State.push]
  | make ty st =>
    simp only [step] at h
    split at h
    · cases h
    · simp only [Out.done.injEq] at h; obtain ⟨rfl, _⟩ := h; rw [pushNew_eq]; exact ⟨rfl, rfl⟩
  | copy x =>
    simp only [step] at h
    split at h
    · simp only [Out.done.injEq] at h; obtain ⟨rfl, _⟩ := h; simp [State.push]
    · cases h
  | move x =>
    simp only [step] at h
    split at h
    · simp only [Out.done.injEq] at h; obtain ⟨rfl, _⟩ := h; simp [State.push]
    · cases h
  | assign x y =>
    simp only [step] at h
    split at h
    · rename_i a c ha hc
      simp only [Out.done.injEq] at h; obtain ⟨rfl, _⟩ := h; rw [point_eq ha]; simp
    · cases h
  | assignFn x ty st =>
    simp only [step] at h
    split at h
    · cases h
    · split at h
      · rename_i a ha
        simp only [Out.done.injEq] at h; obtain ⟨rfl, _⟩ := h; rw [pointNew_eq ha]; simp [State.fresh]
      · cases h
  | reset x =>
    simp only [step] at h
    split at h
    · rename_i a ha
      simp only [Out.done.injEq] at h; obtain ⟨rfl, _⟩ := h; rw [point_eq ha]; simp
    · cases h
  | swap x y =>
    simp only [step] at h
    split at h
    · cases h; exact ⟨rfl, rfl⟩
    · cases h
  | drop x =>
    simp only [step] at h
    split at h
    · simp only [Out.done.injEq] at h; obtain ⟨rfl, _⟩ := h; simp
    · cases h
  | deepCopy x =>
    simp only [step] at h
    obtain ⟨c, d, hc, hd, h⟩ := hread h
    simp only [State.copyGet, copyAble, Bool.false_eq_true, ↓reduceIte, Out.done.injEq] at h
    obtain ⟨rfl, _⟩ := h; simp [State.push]
  | isSet x =>
    simp only [step] at h
    split at h
    · cases h; exact ⟨rfl, rfl⟩
    · cases h
  | same x y =>
    simp only [step] at h
    obtain ⟨c, d, hc, hd, h⟩ := hread h
    obtain ⟨c, d, hc, hd, h⟩ := hread h
    cases h; exact ⟨rfl, rfl⟩
  | sameAs x ty st | wasAn x ty =>
    simp only [step] at h
    split at h
    · cases h
    · obtain ⟨c, d, hc, hd, h⟩ := hread h
      cases h; exact ⟨rfl, rfl⟩
  | edit x ty st =>
    simp only [step] at h
    split at h
    · cases h
    · obtain ⟨c, d, hc, hd, h⟩ := hread h
      split at h <;> (cases h; exact ⟨rfl, rfl⟩)
  | enter x =>
    simp only [step] at h
    obtain ⟨c, d, hc, hd, h⟩ := hread h
    cases h; exact ⟨rfl, rfl⟩
  | callOwn ty st a =>
    simp only [step] at h
    split at h
    · cases h; exact ⟨rfl, rfl⟩
    · cases h

theorem global_run (K : Kinds) (t : Nat) : ∀ (ops : List Op) {s s' : State} {os : List Obs}, Inv s →
    run K s ops = some (s', os) → Without K (Passive K t) s ops → s'.global = s.global ∧ s'.here t = s.here t
  | [], s, s', os, _, h, _ => by
    simp only [run, Option.some.injEq, Prod.mk.injEq] at h; obtain ⟨rfl, rfl⟩ := h; exact ⟨rfl, rfl⟩
  | op :: ops, s, s', os, hi, h, hw => by
    simp only [run] at h
    split at h
    · rename_i s1 o h1
      have hi1 := (step_done K hi h1).1
      cases hr : run K s1 ops with
      | none => rw [hr] at h; cases h
      | some p =>
        rw [hr] at h
        simp only [Option.map_some, Option.some.injEq, Prod.mk.injEq] at h; obtain ⟨rfl, rfl⟩ := h
        obtain ⟨a1, a2⟩ := global_step K hi h1 t hw.1
        obtain ⟨b1, b2⟩ := global_run K t ops hi1 (s' := p.1) (os := p.2) hr (hw.2 s1 o h1)
        exact ⟨b1.trans a1, b2.trans a2⟩
    · cases h

theorem newcomer_step (K : Kinds) {s s' : State} {op : Op} {o : Obs} (hi : Inv s) (h : step K s op = .done s' o) (t : Nat)
    (hr : ¬ Newcomer K t s op) : s'.here t = s.here t := by
  by_cases hp : Passive K t s op
  · rcases hp with ⟨u, hu⟩ | ha
    · cases op with
      | toPtr v x =>
        have hut : v ≠ t := fun e => hr (.inl ⟨e, hu.2⟩)
        simp only [step, State.read] at h
        cases hv : s.var x with
        | none => rw [hv] at h; cases h
        | some c =>
          obtain ⟨d, hd, hl⟩ := hi.var_cell hv
          rw [hv] at h
          simp only [hd, hl, ↓reduceIte] at h
          split at h
          · cases h; rfl
          · cases h; simp [Ne.symm hut]
      | _ => exact absurd hu (by simp [Remakes])
    · exact absurd (.inr ha) hr
  · exact (global_step K hi h t hp).2

theorem newcomer_run (K : Kinds) (t : Nat) : ∀ (ops : List Op) {s s' : State} {os : List Obs}, Inv s →
    run K s ops = some (s', os) → Without K (Newcomer K t) s ops → s'.here t = s.here t
  | [], s, s', os, _, h, _ => by
    simp only [run, Option.some.injEq, Prod.mk.injEq] at h; obtain ⟨rfl, rfl⟩ := h; rfl
  | op :: ops, s, s', os, hi, h, hw => by
    simp only [run] at h
    split at h
    · rename_i s1 o h1
      have hi1 := (step_done K hi h1).1
      cases hr : run K s1 ops with
      | none => rw [hr] at h; cases h
      | some p =>
        rw [hr] at h
        simp only [Option.map_some, Option.some.injEq, Prod.mk.injEq] at h; obtain ⟨rfl, rfl⟩ := h
        exact (newcomer_run K t ops hi1 (s' := p.1) (os := p.2) hr (hw.2 s1 o h1)).trans (newcomer_step K hi h1 t hw.1)
    · cases h

/-- The thread's own pointer changes only when it makes one, or calls its first. -/
theorem here_step (K : Kinds) {s s' : State} {op : Op} {o : Obs} (hi : Inv s) (h : step K s op = .done s' o) (t c : Nat)
    (hc : s.here t = some c) (hr : ¬ Remakes K s t op) : s'.here t = some c := by
  by_cases hn : Newcomer K t s op
  · rcases hn with hn | ⟨a, rfl⟩
    · exact absurd hn hr
    · simp only [step, hc] at h
      rw [(callAt_here K h).1]; simp
  · exact (newcomer_step K hi h t hn).trans hc

theorem here_run (K : Kinds) (t c : Nat) : ∀ (ops : List Op) {s s' : State} {os : List Obs}, Inv s →
    run K s ops = some (s', os) → s.here t = some c → Without K (fun s op => Remakes K s t op) s ops → s'.here t = some c
  | [], s, s', os, _, h, hc, _ => by
    simp only [run, Option.some.injEq, Prod.mk.injEq] at h; obtain ⟨rfl, rfl⟩ := h; exact hc
  | op :: ops, s, s', os, hi, h, hc, hw => by
    simp only [run] at h
    split at h
    · rename_i s1 o h1
      have hi1 := (step_done K hi h1).1
      cases hr : run K s1 ops with
      | none => rw [hr] at h; cases h
      | some p =>
        rw [hr] at h
        simp only [Option.map_some, Option.some.injEq, Prod.mk.injEq] at h; obtain ⟨rfl, rfl⟩ := h
        exact here_run K t c ops hi1 (s' := p.1) (os := p.2) hr (here_step K hi h1 t c hc hw.1) (hw.2 s1 o h1)
    · cases h

end ELC.Func
