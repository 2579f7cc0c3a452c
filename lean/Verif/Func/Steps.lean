import Verif.Func.Lemmas

namespace ELC.Func

/-- An action that is done is the action on callables, and keeps what holds. -/
theorem step_done (K : Kinds) {s s' : State} {op : Op} {o : Obs} (hi : Inv s) (h : step K s op = .done s' o) :
    Inv s' ∧ s.world.act K op = some (s'.world, o) := by
  have hread : ∀ {x : Nat} {f : Nat → Cell → Out}, s.read x f = .done s' o →
      ∃ c d, s.var x = some c ∧ s.cells[c]? = some d ∧ d.live = true ∧ f c d = .done s' o := by
    intro x f h
    unfold State.read at h
    split at h
    · rename_i c hc
      split at h
      · rename_i d hd
        split at h
        · rename_i hl; exact ⟨c, d, hc, hd, hl, h⟩
        · cases h
      · cases h
    · cases h
  cases op with
  | empty =>
    simp only [step, Out.done.injEq] at h; obtain ⟨rfl, rfl⟩ := h
    exact ⟨hi.push (by simp [uses]), by simp only [World.act, push_world]; rfl⟩
  | make ty st =>
    simp only [step] at h
    split at h
    · cases h
    · rename_i hty
      simp only [Out.done.injEq] at h; obtain ⟨rfl, rfl⟩ := h
      refine ⟨hi.pushNew st hty, ?_⟩
      rw [pushNew_eq]
      simp [World.act, hty, State.world, State.fresh]
  | copy x =>
    simp only [step] at h
    split at h
    · rename_i c hc
      simp only [Out.done.injEq] at h; obtain ⟨rfl, rfl⟩ := h
      exact ⟨hi.push (var_uses hc), by simp only [World.act, named, hc, Option.map_some, push_world]; rfl⟩
    · cases h
  | move x =>
    simp only [step] at h
    split at h
    · rename_i c hc
      simp only [Out.done.injEq] at h; obtain ⟨rfl, rfl⟩ := h
      have hi' : Inv (s.push 0) := hi.push (by simp [uses])
      have hx := var_some hc
      have hxl := (List.getElem?_eq_some_iff.1 hx).1
      have hv : (s.push 0).vars = s.vars ++ [some 0] := by simp [State.push]
      have hlist : ((s.push 0).vars.set ((s.push 0).vars.length - 1) (some c)).set x (some 0) =
          s.vars.set x (some 0) ++ [some c] := by
        rw [hv]
        simp [List.set_append, hxl]
      refine ⟨hi'.rename fun k => ?_, ?_⟩
      · apply uses_swap
        · rw [hv]; simp
        · rw [hv, List.getElem?_append_left hxl]; exact hx
      · have hw := push_world s 0
        simp only [World.act, named, hc, Option.map_some]
        simp only [hlist]
        simp [State.world, State.push, add_things]
    · cases h
  | assign x y =>
    simp only [step] at h
    split at h
    · rename_i a c ha hc
      simp only [Out.done.injEq] at h; obtain ⟨rfl, rfl⟩ := h
      refine ⟨hi.point ha (var_uses hc), ?_⟩
      simp only [World.act, named, ha, hc, Option.bind_some, Option.map_some, point_world ha]; rfl
    · cases h
  | assignFn x ty st =>
    simp only [step] at h
    split at h
    · cases h
    · rename_i hty
      split at h
      · rename_i a ha
        simp only [Out.done.injEq] at h; obtain ⟨rfl, rfl⟩ := h
        refine ⟨hi.pointNew st ha hty, ?_⟩
        simp only [World.act, hty, ↓reduceIte, named, ha, Option.map_some, pointNew_world ha]
        simp [State.world]
      · cases h
  | reset x =>
    simp only [step] at h
    split at h
    · rename_i a ha
      simp only [Out.done.injEq] at h; obtain ⟨rfl, rfl⟩ := h
      refine ⟨hi.point ha (by simp [uses]), ?_⟩
      simp only [World.act, named, ha, Option.map_some, point_world ha]; rfl
    · cases h
  | swap x y =>
    simp only [step] at h
    split at h
    · rename_i a b ha hb
      simp only [Out.done.injEq] at h; obtain ⟨rfl, rfl⟩ := h
      refine ⟨hi.rename fun k => uses_swap (var_some ha) (var_some hb) k, ?_⟩
      simp only [World.act, named, ha, hb, Option.bind_some, Option.map_some]; rfl
    · cases h
  | drop x =>
    simp only [step] at h
    split at h
    · rename_i a ha
      simp only [Out.done.injEq] at h; obtain ⟨rfl, rfl⟩ := h
      refine ⟨hi.drop ha, ?_⟩
      simp only [World.act, named, ha, Option.map_some]
      simp [State.world, cut_things]
    · cases h
  | deepCopy x =>
    simp only [step] at h
    obtain ⟨c, d, hc, hd, hl, h⟩ := hread h
    simp only [State.copyGet, copyAble, Bool.false_eq_true, ↓reduceIte, Out.done.injEq] at h
    obtain ⟨rfl, rfl⟩ := h
    exact ⟨hi.push (var_uses hc), by simp only [World.act, named, hc, Option.map_some, push_world]; rfl⟩
  | isSet x =>
    simp only [step] at h
    split at h
    · rename_i c hc
      simp only [Out.done.injEq] at h; obtain ⟨rfl, rfl⟩ := h
      exact ⟨hi, by simp [World.act, named, hc]⟩
    · cases h
  | same x y =>
    simp only [step] at h
    obtain ⟨c, d, hc, hd, hl, h⟩ := hread h
    obtain ⟨c', d', hc', hd', hl', h⟩ := hread h
    simp only [Out.done.injEq] at h; obtain ⟨rfl, rfl⟩ := h
    exact ⟨hi, by simp only [World.act, named, hc, hc', Option.bind_some, thing hd, thing hd', Option.map_some, equal_same]⟩
  | sameAs x ty st =>
    simp only [step] at h
    split at h
    · cases h
    · rename_i hty
      obtain ⟨c, d, hc, hd, hl, h⟩ := hread h
      simp only [Out.done.injEq] at h; obtain ⟨rfl, rfl⟩ := h
      have := equal_same K d ⟨ty, st, 0, true⟩
      simp only at this
      exact ⟨hi, by simp only [World.act, hty, ↓reduceIte, named, hc, Option.bind_some, thing hd, Option.map_some, this]⟩
  | wasAn x ty =>
    simp only [step] at h
    split at h
    · cases h
    · rename_i hty
      obtain ⟨c, d, hc, hd, hl, h⟩ := hread h
      simp only [Out.done.injEq] at h; obtain ⟨rfl, rfl⟩ := h
      exact ⟨hi, by simp only [World.act, hty, ↓reduceIte, named, hc, Option.bind_some, thing hd, Option.map_some]⟩
  | edit x ty st =>
    simp only [step] at h
    split at h
    · cases h
    · rename_i hty
      obtain ⟨c, d, hc, hd, hl, h⟩ := hread h
      split at h
      · rename_i he
        simp only [Out.done.injEq] at h; obtain ⟨rfl, rfl⟩ := h
        refine ⟨hi.store hd st, ?_⟩
        simp only [World.act, hty, ↓reduceIte, named, hc, Option.bind_some, thing hd, Option.map_some, he, store_world]
      · rename_i he
        simp only [Out.done.injEq] at h; obtain ⟨rfl, rfl⟩ := h
        exact ⟨hi, by simp only [World.act, hty, ↓reduceIte, named, hc, Option.bind_some, thing hd, Option.map_some, he]⟩
  | call x a =>
    simp only [step] at h
    split at h
    · rename_i c hc
      obtain ⟨d, hd, hl⟩ := hi.var_cell hc
      obtain ⟨s1, o1, h1, h2, h3, _⟩ := callAt_done K hi (a := a) hd hl
      rw [h1] at h; cases h
      exact ⟨h2, by simp only [World.act, named, hc, Option.bind_some, h3]⟩
    · cases h
  | enter x =>
    simp only [step] at h
    obtain ⟨c, d, hc, hd, hl, h⟩ := hread h
    simp only [Out.done.injEq] at h; obtain ⟨rfl, rfl⟩ := h
    refine ⟨⟨hi.good, ?_, hi.here, hi.global⟩, by simp only [World.act, named, hc, Option.map_some]; rfl⟩
    intro k hk
    rcases List.mem_append.1 hk with hk | hk
    · exact hi.running k hk
    · simp at hk; subst hk; exact (List.getElem?_eq_some_iff.1 hd).1
  | leave k a =>
    simp only [step] at h
    split at h
    · rename_i c hc
      have hi' : Inv { s with running := s.running.eraseIdx k } :=
        ⟨hi.good, fun j hj => hi.running j (List.mem_of_mem_eraseIdx hj), hi.here, hi.global⟩
      have hlt := hi.running c (List.mem_of_getElem? hc)
      have hd : ({ s with running := s.running.eraseIdx k } : State).cells[c]? = some s.cells[c] :=
        List.getElem?_eq_getElem hlt
      cases hl : s.cells[c].live with
      | true =>
        obtain ⟨s1, o1, h1, h2, h3, _⟩ := callAt_done K hi' (a := a) hd hl
        rw [h1] at h; cases h
        refine ⟨h2, ?_⟩
        have hb : s.world.busy[k]? = some c := hc
        simp only [World.act, hb, Option.bind_some]; exact h3
      | false => simp only [State.callAt, hd, hl, Bool.false_eq_true, ↓reduceIte] at h; cases h
    · cases h
  | toPtr t x =>
    simp only [step] at h
    obtain ⟨c, d, hc, hd, hl, h⟩ := hread h
    split at h
    · rename_i hp
      simp only [Out.done.injEq] at h; obtain ⟨rfl, rfl⟩ := h
      refine ⟨hi, ?_⟩
      simp only [World.act, named, hc, Option.bind_some, thing hd, Option.map_some]
      rw [if_pos hp]
    · rename_i hp
      simp only [Out.done.injEq] at h; obtain ⟨rfl, rfl⟩ := h
      refine ⟨⟨hi.good, hi.running, ?_, ?_⟩, ?_⟩
      · intro u k hk
        simp only at hk
        split at hk
        · cases hk; exact (List.getElem?_eq_some_iff.1 hd).1
        · exact hi.here u k hk
      · intro k hk; cases hk; exact (List.getElem?_eq_some_iff.1 hd).1
      · simp only [World.act, named, hc, Option.bind_some, thing hd, Option.map_some]
        rw [if_neg hp]; rfl
  | callPtr t a =>
    simp only [step] at h
    change (match s.target t with
      | some c => { s with here := fun u => if u = t then some c else s.here u }.callAt K c a
      | none => .undefined) = _ at h
    split at h
    · rename_i c hc
      have hlt : c < s.cells.length := by
        unfold State.target at hc
        split at hc
        · rename_i k hk; cases hc; exact hi.here t _ hk
        · exact hi.global _ hc
      have hi' : Inv { s with here := fun u => if u = t then some c else s.here u } :=
        ⟨hi.good, hi.running, by
          intro u k hk; simp only at hk; split at hk
          · cases hk; exact hlt
          · exact hi.here u k hk, hi.global⟩
      have hd : ({ s with here := fun u => if u = t then some c else s.here u } : State).cells[c]? = some s.cells[c] :=
        List.getElem?_eq_getElem hlt
      cases hl : s.cells[c].live with
      | true =>
        obtain ⟨s1, o1, h1, h2, h3, _⟩ := callAt_done K hi' (a := a) hd hl
        rw [h1] at h; cases h
        refine ⟨h2, ?_⟩
        have hb : s.world.pointed t = some c := hc
        simp only [World.act, hb, Option.bind_some]; exact h3
      | false => simp only [State.callAt, hd, hl, Bool.false_eq_true, ↓reduceIte] at h; cases h
    · cases h
  | callOwn ty st a =>
    simp only [step] at h
    split at h
    · rename_i hp
      simp only [Out.done.injEq] at h; obtain ⟨rfl, rfl⟩ := h
      exact ⟨hi, by simp only [World.act]; rw [if_pos hp]⟩
    · cases h

theorem run_done (K : Kinds) : ∀ (ops : List Op) {s s' : State} {os : List Obs}, Inv s → run K s ops = some (s', os) →
    Inv s' ∧ s.world.acts K ops = some (s'.world, os)
  | [], s, s', os, hi, h => by simp only [run, Option.some.injEq, Prod.mk.injEq] at h; obtain ⟨rfl, rfl⟩ := h; exact ⟨hi, rfl⟩
  | op :: ops, s, s', os, hi, h => by
    simp only [run] at h
    split at h
    · rename_i s1 o h1
      obtain ⟨hi1, hw⟩ := step_done K hi h1
      cases hr : run K s1 ops with
      | none => rw [hr] at h; cases h
      | some p =>
        rw [hr] at h
        simp only [Option.map_some, Option.some.injEq, Prod.mk.injEq] at h; obtain ⟨rfl, rfl⟩ := h
        obtain ⟨hi2, hw2⟩ := run_done K ops hi1 (s' := p.1) (os := p.2) hr
        exact ⟨hi2, by simp only [World.acts, hw, Option.bind_some, hw2, Option.map_some]⟩
    · cases h

/-- Data at `c` lives just when a variable holds it, or it is the empty callable. -/
theorem Inv.live_iff {s : State} (hi : Inv s) {c : Nat} {d : Cell} (h : s.cells[c]? = some d) :
    d.live = true ↔ s.Held c ∨ c = 0 := by
  rw [hi.good.live c d h]
  unfold uses
  have := List.count_pos_iff (a := some c) (l := s.vars)
  by_cases h0 : c = 0
  · simp [h0]
  · simp only [h0, ↓reduceIte, Nat.add_zero, or_false]; exact this

theorem callAt_undefined (K : Kinds) {s : State} (hi : Inv s) {c a : Nat} (hc : c < s.cells.length) :
    s.callAt K c a = .undefined ↔ ¬ s.Held c ∧ c ≠ 0 := by
  have hd := List.getElem?_eq_getElem hc
  have hl := hi.live_iff hd
  cases h : s.cells[c].live with
  | true =>
    simp only [State.callAt, hd, h, ↓reduceIte, reduceCtorEq, false_iff]
    have := hl.1 h
    rintro ⟨h1, h2⟩; exact this.elim h1 h2
  | false =>
    simp only [State.callAt, hd, h, Bool.false_eq_true, ↓reduceIte, true_iff]
    rw [h] at hl
    exact ⟨fun h1 => by simp [h1] at hl, fun h1 => by simp [h1] at hl⟩

/-- When an action is undefined. -/
theorem step_undefined (K : Kinds) {s : State} (hi : Inv s) (op : Op) :
    step K s op = .undefined ↔
      (∃ k a c, op = .leave k a ∧ s.running[k]? = some c ∧ ¬ s.Held c ∧ c ≠ 0) ∨
      (∃ t a, op = .callPtr t a ∧ ∀ c, s.target t = some c → ¬ s.Held c ∧ c ≠ 0) := by
  have hread : ∀ {x : Nat} {f : Nat → Cell → Out}, (∀ c d, f c d ≠ .undefined) → s.read x f ≠ .undefined := by
    intro x f hf h
    unfold State.read at h
    split at h
    · rename_i c hc
      obtain ⟨d, hd, hl⟩ := hi.var_cell hc
      rw [hd] at h
      simp only [hl, ↓reduceIte] at h
      exact hf c d h
    · cases h
  have none_ : ∀ {op : Op}, step K s op ≠ .undefined → (∀ k a, op ≠ .leave k a) → (∀ t a, op ≠ .callPtr t a) →
      (step K s op = .undefined ↔
      (∃ k a c, op = .leave k a ∧ s.running[k]? = some c ∧ ¬ s.Held c ∧ c ≠ 0) ∨
      (∃ t a, op = .callPtr t a ∧ ∀ c, s.target t = some c → ¬ s.Held c ∧ c ≠ 0)) := by
    intro op h1 h2 h3
    refine ⟨fun h => absurd h h1, ?_⟩
    rintro (⟨k, a, c, h, _⟩ | ⟨t, a, h, _⟩)
    · exact absurd h (h2 k a)
    · exact absurd h (h3 t a)
  cases op with
  | leave k a =>
    simp only [step]
    split
    · rename_i c hc
      have hi' : Inv { s with running := s.running.eraseIdx k } :=
        ⟨hi.good, fun j hj => hi.running j (List.mem_of_mem_eraseIdx hj), hi.here, hi.global⟩
      have hlt := hi.running c (List.mem_of_getElem? hc)
      rw [callAt_undefined K hi' hlt]
      constructor
      · intro h; exact .inl ⟨k, a, c, rfl, hc, h⟩
      · rintro (⟨k', a', c', he, hc', h⟩ | ⟨t, a', he, _⟩)
        · cases he; rw [hc] at hc'; cases hc'; exact h
        · cases he
    · rename_i hc
      refine ⟨(fun h => by cases h), ?_⟩
      rintro (⟨k', a', c', he, hc', h⟩ | ⟨t, a', he, _⟩)
      · cases he; rw [hc] at hc'; cases hc'
      · cases he
  | callPtr t a =>
    simp only [step]
    change (match s.target t with
      | some c => { s with here := fun u => if u = t then some c else s.here u }.callAt K c a
      | none => .undefined) = _ ↔ _
    split
    · rename_i c hc
      have hlt : c < s.cells.length := by
        unfold State.target at hc
        split at hc
        · rename_i k hk; cases hc; exact hi.here t _ hk
        · exact hi.global _ hc
      have hi' : Inv { s with here := fun u => if u = t then some c else s.here u } :=
        ⟨hi.good, hi.running, by
          intro u k hk; simp only at hk; split at hk
          · cases hk; exact hlt
          · exact hi.here u k hk, hi.global⟩
      rw [callAt_undefined K hi' hlt]
      constructor
      · intro h; exact .inr ⟨t, a, rfl, fun c' hc' => by rw [hc] at hc'; cases hc'; exact h⟩
      · rintro (⟨k', a', c', he, hc', h⟩ | ⟨t', a', he, h⟩)
        · cases he
        · cases he; exact h c hc
    · rename_i hc
      exact ⟨fun _ => .inr ⟨t, a, rfl, fun c' hc' => by rw [hc] at hc'; cases hc'⟩, fun _ => rfl⟩
  | deepCopy x => exact none_ (by simp only [step]; exact hread (by intros; simp)) (by simp) (by simp)
  | same x y =>
    exact none_ (by simp only [step]; exact hread (fun _ _ => hread (by intros; simp))) (by simp) (by simp)
  | sameAs x ty st =>
    exact none_ (by
      simp only [step]; split
      · simp
      · exact hread (by intros; simp)) (by simp) (by simp)
  | wasAn x ty =>
    exact none_ (by
      simp only [step]; split
      · simp
      · exact hread (by intros; simp)) (by simp) (by simp)
  | edit x ty st =>
    exact none_ (by
      simp only [step]; split
      · simp
      · exact hread (by intros; split <;> simp)) (by simp) (by simp)
  | enter x => exact none_ (by simp only [step]; exact hread (by intros; simp)) (by simp) (by simp)
  | toPtr t x => exact none_ (by simp only [step]; exact hread (by intros; split <;> simp)) (by simp) (by simp)
  | call x a =>
    refine none_ ?_ (by simp) (by simp)
    simp only [step]
    split
    · rename_i c hc
      have hlt := hi.good.inside c (var_uses hc)
      rw [Ne, callAt_undefined K hi hlt]
      exact fun h => h.1 (var_held hc)
    · simp
  | empty | make | copy | move | assign | assignFn | reset | swap | drop | isSet | callOwn =>
    exact none_ (by simp only [step]; (repeat' split) <;> simp) (by simp) (by simp)

end ELC.Func
