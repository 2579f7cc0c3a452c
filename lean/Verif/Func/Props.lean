import Verif.Func.Pointers

/-!
Properties of function objects.  `run K init ops` is any program: functions made, copied, moved, assigned, compared, called
(also while other calls run), and pointers to functions made and called by any threads in any order.
-/
namespace ELC.Func

/-- A counter: each call adds the argument and returns the sum.  Type 1 has no `==` (a lambda), type 2 has one; type 3 is a
pointer to a function that returns its argument plus its state. -/
def demo : Kinds where
  call ty st a := if ty = 3 then (st + a, st) else (st + a, st + a)
  equal ty := if ty = 2 ∨ ty = 3 then some (· == ·) else none
  plain ty := ty == 3

/-! ### C90: functions are names for callables -/

/-- Whatever a program sees of its functions is what it would see if they were names for callables that are never destroyed:
counting and destroying is not visible, as long as nothing undefined happens.  The full statement is that nothing undefined
happens; see `undefined_characterised` and `replaced_refuted`. -/
theorem names_partial (K : Kinds) (ops : List Op) (s : State) (os : List Obs) (h : run K init ops = some (s, os)) :
    World.start.acts K ops = some (s.world, os) :=
  (run_done K ops inv_init h).2

example : ∃ s, run demo init [.make 1 5, .copy 0, .call 0 1, .call 1 1, .reset 0, .call 0 9, .call 1 1, .drop 1] =
    some (s, [.nothing, .nothing, .ret 6, .ret 7, .nothing, .ret 0, .ret 8, .nothing]) ∧ s.freed = [1] := ⟨_, rfl, rfl⟩

/-- When an action is undefined: at the end of a call of a function that has lost its callable meanwhile, and at a call of a
pointer to a function whose callable has gone, or that was never made. -/
theorem undefined_characterised (K : Kinds) (ops : List Op) (s : State) (os : List Obs)
    (h : run K init ops = some (s, os)) (op : Op) :
    step K s op = .undefined ↔
      (∃ k a c, op = .leave k a ∧ s.running[k]? = some c ∧ ¬ s.Held c ∧ c ≠ 0) ∨
      (∃ t a, op = .callPtr t a ∧ ∀ c, s.target t = some c → ¬ s.Held c ∧ c ≠ 0) :=
  step_undefined K (run_done K ops inv_init h).1 op

/-- A callable is destroyed once, and just when no function names it any more; what the functions of the program name is
there. -/
theorem destroyed_once (K : Kinds) (ops : List Op) (s : State) (os : List Obs) (h : run K init ops = some (s, os)) :
    s.freed.Nodup ∧ (∀ c, c < s.cells.length → (c ∈ s.freed ↔ ¬ s.Held c ∧ c ≠ 0)) ∧
      ∀ c, s.Held c → ∃ d, s.cells[c]? = some d ∧ d.live = true := by
  have hi := (run_done K ops inv_init h).1
  refine ⟨hi.good.once, fun c hc => ?_, fun c hc => ?_⟩
  · have hd := List.getElem?_eq_getElem hc
    have h1 := hi.live_iff hd
    have h2 := hi.good.dead c _ hd
    rw [← h2]
    cases hl : s.cells[c].live with
    | true =>
      rw [hl] at h1
      simp only [Bool.true_eq_false, false_iff, not_and, Decidable.not_not]
      intro h3; exact (h1.1 rfl).resolve_left h3
    | false =>
      rw [hl] at h1
      simp only [true_iff]
      exact ⟨fun h3 => by simp [h3] at h1, fun h3 => by simp [h3] at h1⟩
  · have hp : 0 < uses s.vars c := by have := uses_held hc; unfold uses; omega
    have hlt := hi.good.inside c hp
    exact ⟨_, List.getElem?_eq_getElem hlt, (hi.live_iff (List.getElem?_eq_getElem hlt)).2 (.inl hc)⟩

/-- The full statement of `names_partial` is false: a function that is set to another one, or emptied, by its own callable
while it runs is used after it was destroyed. -/
theorem replaced_refuted : ¬ ∀ (K : Kinds) (ops : List Op) (s : State) (os : List Obs) (k a : Nat),
    run K init ops = some (s, os) → step K s (.leave k a) ≠ .undefined := by
  intro h
  exact h demo [.make 1 5, .enter 0, .reset 0] _ _ 0 1 rfl rfl

/-- A call gives what the callable gives, and every function that names the same callable sees the change, and no other:
functions that were copied share one state. -/
theorem call_shared (K : Kinds) (ops : List Op) (s : State) (os : List Obs) (h : run K init ops = some (s, os))
    (x a c ty st : Nat) (hx : s.world.named x = some c) (hv : s.world.things[c]? = some (ty, st)) (hty : ty ≠ 0) :
    ∃ s', step K s (.call x a) = .done s' (.ret (K.call ty st a).1) ∧
      ∀ z, s'.world.value z = if s.world.named z = some c then some (ty, (K.call ty st a).2) else s.world.value z := by
  have hi := (run_done K ops inv_init h).1
  have hxv : s.var x = some c := hx
  obtain ⟨d, hd, hl⟩ := hi.var_cell hxv
  obtain ⟨s', o, h1, _, h3, hvars, _⟩ := callAt_done K hi (a := a) hd hl
  have ht := thing hd
  rw [hv] at ht
  have hlt := (List.getElem?_eq_some_iff.1 hv).1
  unfold World.use at h3
  rw [hv] at h3
  split at h3
  · rename_i _ _ heq; cases heq; exact absurd rfl hty
  · rename_i ty' st' _ heq; cases heq
    simp only [Option.some.injEq, Prod.mk.injEq] at h3
    obtain ⟨hw, ho⟩ := h3
    refine ⟨s', by simp only [step, hxv]; rw [h1, ← ho], fun z => ?_⟩
    rw [← hw]
    unfold World.value World.named
    simp only
    cases hz : (s.world.names[z]?).bind id with
    | none => simp
    | some e =>
      simp only [Option.bind_some, Option.some.injEq]
      by_cases he : e = c
      · subst he; simp [hlt]
      · rw [List.getElem?_set_ne (Ne.symm he)]; simp [he]
  · rename_i heq; cases heq

/-- `deep_copy` is meant to give a function with a callable of its own: calling the copy does not change the original.
False: the copy names the same callable. -/
theorem deep_copy_refuted : ¬ ∀ (K : Kinds) (ops : List Op) (s s1 s2 : State) (os : List Obs) (o1 o2 : Obs) (x a : Nat),
    run K init ops = some (s, os) → step K s (.deepCopy x) = .done s1 o1 → step K s1 (.call s.vars.length a) = .done s2 o2 →
    s2.world.value x = s.world.value x := by
  intro h
  have := h demo [.make 1 5] _ _ _ _ _ _ 0 1 rfl rfl rfl
  revert this
  decide

/-- `deep_copy` does in every state what copying does. -/
theorem deep_copy_characterised (K : Kinds) (ops : List Op) (s : State) (os : List Obs) (h : run K init ops = some (s, os))
    (x : Nat) : step K s (.deepCopy x) = step K s (.copy x) := by
  have hi := (run_done K ops inv_init h).1
  simp only [step, State.read]
  cases hx : s.var x with
  | none => rfl
  | some c =>
    obtain ⟨d, hd, hl⟩ := hi.var_cell hx
    simp only [hd, hl, ↓reduceIte, State.copyGet, copyAble, Bool.false_eq_true]

/-- Two functions are equal just when both are empty, or both hold callables of one type that has an `==`, which says so. -/
theorem equal_characterised (K : Kinds) (ops : List Op) (s : State) (os : List Obs) (h : run K init ops = some (s, os))
    (x y : Nat) (p q : Nat × Nat) (hx : s.world.value x = some p) (hy : s.world.value y = some q) :
    ∃ b, step K s (.same x y) = .done s (.bool b) ∧
      (b = true ↔ p.1 = q.1 ∧ (p.1 = 0 ∨ ∃ e, K.equal p.1 = some e ∧ e p.2 q.2 = true)) := by
  have hi := (run_done K ops inv_init h).1
  have get : ∀ {x : Nat} {p : Nat × Nat}, s.world.value x = some p →
      ∃ c d, s.var x = some c ∧ s.cells[c]? = some d ∧ d.live = true ∧ p = (d.ty, d.st) := by
    intro x p hp
    unfold World.value at hp
    cases hc : s.world.named x with
    | none => rw [hc] at hp; cases hp
    | some c =>
      obtain ⟨d, hd, hl⟩ := hi.var_cell (x := x) hc
      rw [hc] at hp
      simp only [Option.bind_some, thing hd, Option.some.injEq] at hp
      exact ⟨c, d, hc, hd, hl, hp.symm⟩
  obtain ⟨c, d, h1, h2, h3, rfl⟩ := get hx
  obtain ⟨c', d', h1', h2', h3', rfl⟩ := get hy
  refine ⟨_, by simp only [step, State.read, h1, h2, h3, h1', h2', h3', ↓reduceIte]; rfl, ?_⟩
  rw [equal_same]
  unfold same
  simp [Option.any_eq_true]

/-- A function need not be equal to itself or to its copies: not when its callable has no `==`. -/
theorem equal_self_refuted : ¬ ∀ (K : Kinds) (ops : List Op) (s : State) (os : List Obs) (x c : Nat),
    run K init ops = some (s, os) → s.var x = some c → step K s (.same x x) = .done s (.bool true) := by
  intro h
  have := h demo [.make 1 5] _ _ 0 1 rfl rfl
  revert this
  simp [step, State.read, State.var, State.new, State.push, State.add, init, equalWith, demo]

/-- A function set by a move assignment leaves the source as it was; a function made from a moved one leaves it empty. -/
theorem moved_characterised (K : Kinds) (ops : List Op) (s : State) (os : List Obs) (h : run K init ops = some (s, os))
    (x c : Nat) (hx : s.world.named x = some c) :
    (∀ y e, s.world.named y = some e → ∃ s', step K s (.assign y x) = .done s' .nothing ∧
      s'.world.named x = some c ∧ s'.world.named y = some c) ∧
    ∃ s', step K s (.move x) = .done s' .nothing ∧ s'.world.named x = some 0 ∧
      s'.world.named s.vars.length = some c := by
  have hi := (run_done K ops inv_init h).1
  have hxv : s.var x = some c := hx
  have hxs := var_some hxv
  have hxl := (List.getElem?_eq_some_iff.1 hxs).1
  constructor
  · intro y e hy
    have hyv : s.var y = some e := hy
    have hys := var_some hyv
    have hyl := (List.getElem?_eq_some_iff.1 hys).1
    have hst : step K s (.assign y x) = .done (s.point y c) .nothing := by simp only [step, hyv, hxv]
    refine ⟨_, hst, ?_⟩
    rw [point_world hyv]
    unfold World.named
    simp only
    by_cases hxy : y = x
    · subst hxy; simp [hxl]
    · rw [List.getElem?_set_ne hxy, List.getElem?_set_self hyl, hxs]; simp
  · cases hst : step K s (.move x) with
    | noSuch => simp only [step, hxv] at hst; cases hst
    | undefined => simp only [step, hxv] at hst; cases hst
    | done s' o =>
      have hw := (step_done K hi hst).2
      have hn : s.world.named x = some c := hx
      simp only [World.act, hn, Option.map_some, Option.some.injEq, Prod.mk.injEq] at hw
      obtain ⟨hw, rfl⟩ := hw
      refine ⟨s', rfl, ?_⟩
      rw [← hw]
      have hvars : s.world.names = s.vars := rfl
      unfold World.named
      simp only [hvars]
      constructor
      · rw [List.getElem?_append_left (by simpa using hxl), List.getElem?_set_self hxl]; rfl
      · rw [List.getElem?_append_right (by simp)]; simp

/-! ### C91: pointers to functions -/

/-- A pointer to a function that thread `t` made from the function `x` does what `x` does, whatever the program and other
threads do in between, as long as `t` makes no other one and `x` names the callable that it named: calling the one or the
other is the same.  The full statement asks only that `x` exists; see `pointer_refuted`. -/
theorem pointer_partial (K : Kinds) (before after : List Op) (s s1 s2 : State) (os os2 : List Obs) (t x a : Nat)
    (h : run K init before = some (s, os)) (hp : step K s (.toPtr t x) = .done s1 (.ptr .shared))
    (h2 : run K s1 after = some (s2, os2)) (hr : Without K (fun s op => Remakes K s t op) s1 after)
    (hx : s2.world.named x = s1.world.named x) :
    step K s2 (.callPtr t a) = step K s2 (.call x a) := by
  have hi := (run_done K before inv_init h).1
  have hi1 := (step_done K hi hp).1
  have hs1 : ∃ c, s1.var x = some c ∧ s1.here t = some c := by
    simp only [step, State.read] at hp
    cases hv : s.var x with
    | none => rw [hv] at hp; cases hp
    | some c =>
      obtain ⟨d, hd, hl⟩ := hi.var_cell hv
      rw [hv] at hp
      simp only [hd, hl, ↓reduceIte] at hp
      split at hp
      · cases hp
      · cases hp; exact ⟨c, hv, by simp⟩
  obtain ⟨c, hv, hc⟩ := hs1
  have hc2 := here_run K t c after hi1 h2 hc hr
  have hv2 : s2.var x = some c := hx.trans hv
  have he : (fun u => if u = t then some c else s2.here u) = s2.here := by
    funext u; split
    · rename_i hu; rw [hu, hc2]
    · rfl
  simp only [step, hc2, hv2, he]

example : ∃ s s1 s2, run demo init [.make 1 5, .make 2 7] = some (s, [.nothing, .nothing]) ∧
    step demo s (.toPtr 0 0) = .done s1 (.ptr .shared) ∧
    run demo s1 [.toPtr 1 1, .callPtr 1 1, .call 0 2] = some (s2, [.ptr .shared, .ret 8, .ret 7]) ∧
    s2.world.named 0 = s1.world.named 0 ∧ ∃ s3, step demo s2 (.callPtr 0 3) = .done s3 (.ret 10) :=
  ⟨_, _, _, rfl, rfl, rfl, rfl, _, rfl⟩

/-- How long the pointer works: as long as any function names the callable it was made from, and it then does what that function does;
undefined afterwards.  Of the empty function it works for ever. -/
theorem pointer_characterised (K : Kinds) (before after : List Op) (s s1 s2 : State) (os os2 : List Obs) (t x a : Nat)
    (h : run K init before = some (s, os)) (hp : step K s (.toPtr t x) = .done s1 (.ptr .shared))
    (h2 : run K s1 after = some (s2, os2)) (hr : Without K (fun s op => Remakes K s t op) s1 after) :
    ∃ c, s1.world.named x = some c ∧ (step K s2 (.callPtr t a) = .undefined ↔ c ≠ 0 ∧ ∀ y, s2.world.named y ≠ some c) ∧
      ∀ y, s2.world.named y = some c → step K s2 (.callPtr t a) = step K s2 (.call y a) := by
  have hi := (run_done K before inv_init h).1
  have hi1 := (step_done K hi hp).1
  have hs1 : ∃ c, s1.var x = some c ∧ s1.here t = some c := by
    simp only [step, State.read] at hp
    cases hv : s.var x with
    | none => rw [hv] at hp; cases hp
    | some c =>
      obtain ⟨d, hd, hl⟩ := hi.var_cell hv
      rw [hv] at hp
      simp only [hd, hl, ↓reduceIte] at hp
      split at hp
      · cases hp
      · cases hp; exact ⟨c, hv, by simp⟩
  obtain ⟨c, hv, hc⟩ := hs1
  have hc2 := here_run K t c after hi1 h2 hc hr
  have hi2 := (run_done K after hi1 h2).1
  have hheld : s2.Held c ↔ ∃ y, s2.world.named y = some c := by
    unfold State.Held
    rw [List.mem_iff_getElem?]
    refine exists_congr fun y => ?_
    show s2.vars[y]? = some (some c) ↔ (s2.vars[y]?).bind id = some c
    cases s2.vars[y]? <;> simp
  refine ⟨c, hv, ?_, fun y hy => ?_⟩
  · rw [step_undefined K hi2]
    have ht : s2.target t = some c := by unfold State.target; rw [hc2]
    constructor
    · rintro (⟨k, b, d, he, _⟩ | ⟨u, b, he, hall⟩)
      · cases he
      · cases he
        obtain ⟨h3, h4⟩ := hall c ht
        exact ⟨h4, fun y hy => h3 (hheld.2 ⟨y, hy⟩)⟩
    · rintro ⟨h3, h4⟩
      refine .inr ⟨t, a, rfl, fun d hd => ?_⟩
      rw [ht] at hd
      cases hd
      exact ⟨fun hh => by obtain ⟨y, hy⟩ := hheld.1 hh; exact h4 y hy, h3⟩
  · have hv2 : s2.var y = some c := hy
    have he : (fun u => if u = t then some c else s2.here u) = s2.here := by
      funext u; split
      · rename_i hu; rw [hu, hc2]
      · rfl
    simp only [step, hc2, hv2, he]

example : ∃ s s1 s2, run demo init [.make 1 5, .copy 0] = some (s, [.nothing, .nothing]) ∧
    step demo s (.toPtr 0 0) = .done s1 (.ptr .shared) ∧ run demo s1 [.drop 0] = some (s2, [.nothing]) ∧
    s2.world.named 1 = s1.world.named 0 ∧ ∃ s3 r, step demo s2 (.callPtr 0 3) = .done s3 (.ret r) :=
  ⟨_, _, _, rfl, rfl, rfl, rfl, _, _, rfl⟩

/-- The documented promise is false: it ends only when the function's life ends (or another pointer is made), but it is
undefined to call the pointer after the function was set to another callable. -/
theorem pointer_refuted : ¬ ∀ (K : Kinds) (before after : List Op) (s s1 s2 : State) (os os2 : List Obs) (t x a : Nat),
    run K init before = some (s, os) → step K s (.toPtr t x) = .done s1 (.ptr .shared) →
    run K s1 after = some (s2, os2) → Without K (fun s op => Remakes K s t op) s1 after →
    s2.world.named x ≠ none → step K s2 (.callPtr t a) ≠ .undefined := by
  intro h
  refine h demo [.make 1 5] [.assignFn 0 1 6] _ _ _ _ _ 0 0 1 rfl rfl rfl ?_ ?_ rfl
  · exact ⟨fun h => h, fun _ _ _ => trivial⟩
  · decide

/-- The first call of a pointer to a function in a thread that has made none itself does what the function does from which
the last one was made, by any other thread, as long as that function names the callable that it named.  The full statement is
about every call in such a thread; see `new_thread_refuted`. -/
theorem new_thread_partial (K : Kinds) (before after : List Op) (s s1 s2 : State) (os os2 : List Obs) (u t x a : Nat)
    (h : run K init before = some (s, os)) (hnew : Without K (Newcomer K t) init before) (hut : u ≠ t)
    (hp : step K s (.toPtr u x) = .done s1 (.ptr .shared)) (h2 : run K s1 after = some (s2, os2))
    (hr : Without K (Passive K t) s1 after) (hx : s2.world.named x = s1.world.named x) :
    (step K s2 (.callPtr t a)).seen = (step K s2 (.call x a)).seen := by
  have hi := (run_done K before inv_init h).1
  have hi1 := (step_done K hi hp).1
  have h0 : s.here t = none := newcomer_run K t before inv_init h hnew
  have hs1 : ∃ c, s1.var x = some c ∧ s1.global = some c ∧ s1.here t = none := by
    simp only [step, State.read] at hp
    cases hv : s.var x with
    | none => rw [hv] at hp; cases hp
    | some c =>
      obtain ⟨d, hd, hl⟩ := hi.var_cell hv
      rw [hv] at hp
      simp only [hd, hl, ↓reduceIte] at hp
      split at hp
      · cases hp
      · cases hp; exact ⟨c, hv, rfl, by simp [Ne.symm hut, h0]⟩
  obtain ⟨c, hv, hg, hn⟩ := hs1
  obtain ⟨g1, g2⟩ := global_run K t after hi1 h2 hr
  have hi2 := (run_done K after hi1 h2).1
  have hv2 : s2.var x = some c := hx.trans hv
  obtain ⟨d, hd, hl⟩ := hi2.var_cell hv2
  have e1 : s2.here t = none := g2.trans hn
  have e2 : s2.global = some c := g1.trans hg
  simp only [step, e1, e2, hv2, State.callAt, hd, hl, ↓reduceIte, Out.seen]

example : ∃ s s1, run demo init [.make 1 5, .make 2 7, .toPtr 0 0] = some (s, [.nothing, .nothing, .ptr .shared]) ∧
    step demo s (.toPtr 1 1) = .done s1 (.ptr .shared) ∧ ∃ s2, step demo s1 (.callPtr 2 1) = .done s2 (.ret 8) :=
  ⟨_, _, rfl, rfl, _, rfl⟩

/-- The documented promise for other threads is false for the second call: it goes on with the function from which the last
pointer had been made at the first call, even when another one has been made since. -/
theorem new_thread_refuted : ¬ ∀ (K : Kinds) (before after : List Op) (s s1 s2 : State) (os os2 : List Obs) (u t x a : Nat),
    run K init before = some (s, os) → Without K (fun s op => Remakes K s t op) init before → u ≠ t →
    step K s (.toPtr u x) = .done s1 (.ptr .shared) → run K s1 after = some (s2, os2) →
    Without K (Passive K t) s1 after → s2.world.named x = s1.world.named x →
    (step K s2 (.callPtr t a)).seen = (step K s2 (.call x a)).seen := by
  intro h
  have := h demo [.make 1 5, .make 1 70, .toPtr 0 0, .callPtr 1 1] [] _ _ _ _ _ 0 1 1 1 rfl
    ⟨fun h => h, fun _ _ _ => ⟨fun h => h, fun _ _ _ => ⟨fun h => absurd h.1 (by decide), fun _ _ _ =>
      ⟨fun h => h, fun _ _ _ => trivial⟩⟩⟩⟩ (by decide) rfl rfl trivial rfl
  revert this
  decide

/-- Of a function that holds a pointer to a function of the program the pointer itself is given: it does what the function
did, for ever, and nothing is changed. -/
theorem own_pointer (K : Kinds) (ops : List Op) (s : State) (os : List Obs) (h : run K init ops = some (s, os))
    (t x ty st a : Nat) (hx : s.world.value x = some (ty, st)) (hty : ty ≠ 0) (hp : K.plain ty = true) :
    step K s (.toPtr t x) = .done s (.ptr (.own ty st)) ∧
      ∀ s2, (step K s2 (.callOwn ty st a)).seen = (step K s (.call x a)).seen := by
  have hi := (run_done K ops inv_init h).1
  unfold World.value at hx
  cases hc : s.world.named x with
  | none => rw [hc] at hx; cases hx
  | some c =>
    have hv : s.var x = some c := hc
    obtain ⟨d, hd, hl⟩ := hi.var_cell hv
    rw [hc] at hx
    simp only [Option.bind_some, thing hd, Option.some.injEq, Prod.mk.injEq] at hx
    obtain ⟨rfl, rfl⟩ := hx
    refine ⟨by simp [step, State.read, hv, hd, hl, hty, hp], fun s2 => ?_⟩
    simp [step, hv, hd, hl, hty, hp, State.callAt, invoke, Out.seen]

example : ∃ s, run demo init [.make 3 40] = some (s, [.nothing]) ∧ s.world.value 0 = some (3, 40) ∧
    step demo s (.toPtr 0 0) = .done s (.ptr (.own 3 40)) := ⟨_, rfl, rfl, rfl⟩

end ELC.Func
