import Verif.Val.Code
/-!
Values of the interpreter and code lists.
-/
namespace ELC.Val
open Spec (Names)

/-! ### C78: names for places -/

/-- Every history of operations on values comes to an end; the only fault is a value that was never made. -/
theorem reads_end (os : List Op) {e : Fault} (h : run init os = .error e) : e = .noValue := run_ends good_init h

/-- In every reachable state every value can be read. -/
theorem value_readable {s : State} (h : Reach s) {x : Nat} (hx : x < s.vals.length) : ∃ v, Reads s x v := by
  obtain ⟨s', a, h1, _⟩ := step_good h.good (.read x) (by simpa [Op.uses] using hx)
  obtain ⟨n, r, h2, h3⟩ := h.good.get (x := x) (i := s.vals[x]) (by simp [hx])
  exact ⟨_, _, by simp only [step, h3, bind, Except.bind, pure, Except.pure]; rfl⟩

/-- Partial: as long as a value whose place is given up for another has been used since the last time this happened to its
place, and is no `special_init` value, values are names for places: reads give what the specification says, during the
history and after it. -/
theorem values_history_partial (os : List Op) {I : Names} {as : List Nat}
    (h : Spec.run true Spec.start os = some (I, as)) :
    ∃ s, run init os = .ok (s, as) ∧ ∀ x v, Reads s x v ↔ I.reads x = some v := by
  obtain ⟨s, ρ, h1, h2⟩ := run_rel rel_start h
  exact ⟨s, h1, h2.reads⟩

/-- A history the specification allows: two names of one place, one given up for a third place, then assignment. -/
example : ∃ I, Spec.run true Spec.start
    [.fresh, .copy 0, .fresh, .refTo 1 2, .assign 2 7, .read 0, .read 1, .unRef 1, .assign 1 8, .read 0, .read 1,
      .const 3, .shift 3 2, .read 0, .assign 0 9, .read 2] = some (I, [7, 7, 7, 8, 3, 3]) := ⟨_, rfl⟩

/-- The full statement is false: values 0 and 1 share; value 0 is redirected to value 2; when value 1 is redirected to
value 3, value 0 does not follow. -/
theorem values_history_refuted : ∃ (os : List Op) (I : Names) (as bs : List Nat) (s : State),
    Spec.run false Spec.start os = some (I, as) ∧ run init os = .ok (s, bs) ∧ as ≠ bs :=
  ⟨[.fresh, .copy 0, .const 5, .const 6, .refTo 0 2, .refTo 1 3, .read 0], _, [6], [5], _, rfl, rfl, by decide⟩

/-- Following the replacements of value `y` comes past the cell value `x` has. -/
def HangsOn (s : State) (y x : Nat) : Prop := ∃ i j, s.vals[y]? = some i ∧ s.vals[x]? = some j ∧ Visits s.cells i j

/-- What `x.ref_to(z)` does, in every state: `x` and the values that hang on its cell read what `z` reads, all others what
they read before. -/
theorem ref_to_characterised {s s' : State} {a : Option Nat} (h : Reach s) {x z : Nat}
    (hs : step s (.refTo x z) = .ok (s', a)) (y v : Nat) :
    ((y = x ∨ HangsOn s y x) → (Reads s' y v ↔ Reads s z v)) ∧
    (¬ (y = x ∨ HangsOn s y x) → (Reads s' y v ↔ Reads s y v)) := by
  have hg := h.good
  match hx : s.vals[x]?, hz : s.vals[z]? with
  | none, _ =>
    match hz : s.vals[z]? with
    | none => simp [step, State.to_none hz, bind, Except.bind] at hs
    | some j => simp [step, State.to_none hx, State.to_some hz, bind, Except.bind] at hs
  | some i, none => simp [step, State.to_none hz, bind, Except.bind] at hs
  | some i, some j =>
    obtain ⟨n, p, h1, h2⟩ := hg.chain hz
    obtain ⟨c, hc, hcp⟩ := h1.isRoot
    obtain ⟨k0, r0, g1, _⟩ := hg.chain hx
    simp only [step, State.to_some hx, State.to_some hz, h2, bind, Except.bind, pure, Except.pure, Except.ok.injEq,
      Prod.mk.injEq] at hs
    obtain ⟨rfl, rfl⟩ := hs
    have hg' : Good ⟨beReplaceAs s.cells i p, s.vals.set x p⟩ :=
      (hg.replace (hg.lt hx) h1).set (x := x) (by simpa [beReplaceAs_length] using h1.lt)
    have hpc : ∃ f, (beReplaceAs s.cells i p)[p]? = some ⟨c.data, f⟩ := beReplaceAs_data hc
    obtain ⟨f, hf⟩ := hpc
    have hroot : Chain (beReplaceAs s.cells i p) p 0 p := by
      by_cases hip : p = i
      · subst hip; rw [beReplaceAs_self hc hcp]; exact .root hc hcp
      · exact .root (by rw [beReplaceAs_ne hip]; exact hc) hcp
    have hz' : Reads s z v ↔ c.data.get = v := by
      rw [hg.reads]
      constructor
      · rintro ⟨j', n', r', c', e1, e2, e3, rfl⟩
        rw [hz] at e1; cases e1
        obtain ⟨_, rfl⟩ := h1.unique e2
        rw [hc] at e3; cases e3; rfl
      · rintro rfl
        exact ⟨j, n, p, c, hz, h1, hc, rfl⟩
    -- values whose chain ends at `p` afterwards
    have toP : ∀ i' m, (s.vals.set x p)[y]? = some i' → Chain (beReplaceAs s.cells i p) i' m p →
        (Reads ⟨beReplaceAs s.cells i p, s.vals.set x p⟩ y v ↔ Reads s z v) := by
      intro i' m e1 e2
      rw [hz', hg'.reads]
      constructor
      · rintro ⟨i2, n2, r2, c2, d1, d2, d3, rfl⟩
        dsimp only at d1 d2 d3
        rw [e1] at d1; cases d1
        obtain ⟨_, rfl⟩ := e2.unique d2
        rw [hf] at d3; cases d3; rfl
      · rintro rfl
        exact ⟨i', m, p, _, e1, e2, hf, rfl⟩
    constructor
    · rintro (rfl | ⟨i', j', e1, e2, e3⟩)
      · exact toP p 0 (by rw [List.getElem?_set_self (get?_some_of hx)]) hroot
      · rw [hx] at e2; cases e2
        by_cases hyx : y = x
        · subst hyx
          exact toP p 0 (by rw [List.getElem?_set_self (get?_some_of hx)]) hroot
        · have e1' : (s.vals.set x p)[y]? = some i' := by rw [List.getElem?_set_ne (fun e => hyx e.symm)]; exact e1
          obtain ⟨k, r, f1, _⟩ := hg.chain e1
          by_cases hip : p = i
          · subst hip
            have : r = p := (f1.visits_root hc hcp).1 e3
            subst this
            exact toP i' k e1' (by rw [beReplaceAs_self hc hcp]; exact f1)
          · obtain ⟨m, _, hm, _⟩ := f1.replaced e3 hc hcp hip
            exact toP i' m e1' hm
    · intro hno
      have hyx : y ≠ x := fun e => hno (.inl e)
      rw [hg.reads, hg'.reads]
      have hsame : (s.vals.set x p)[y]? = s.vals[y]? := List.getElem?_set_ne (fun e => hyx e.symm)
      constructor
      · rintro ⟨i2, n2, r2, c2, d1, d2, d3, rfl⟩
        dsimp only at d1 d2 d3
        rw [hsame] at d1
        obtain ⟨k, r, f1, _⟩ := hg.chain d1
        have hv : ¬ Visits s.cells i2 i := fun hv => hno (.inr ⟨i2, i, d1, hx, hv⟩)
        obtain ⟨_, rfl⟩ := d2.unique (f1.kept hv)
        obtain ⟨cr, hcr, _⟩ := f1.isRoot
        obtain ⟨f', hf'⟩ := beReplaceAs_data (i := i) (p := p) hcr
        rw [hf'] at d3; cases d3
        exact ⟨i2, k, r2, cr, d1, f1, hcr, rfl⟩
      · rintro ⟨i2, n2, r2, c2, d1, d2, d3, rfl⟩
        have hv : ¬ Visits s.cells i2 i := fun hv => hno (.inr ⟨i2, i, d1, hx, hv⟩)
        obtain ⟨f', hf'⟩ := beReplaceAs_data (i := i) (p := p) d3
        exact ⟨i2, n2, r2, _, by rw [hsame]; exact d1, d2.kept hv, hf', rfl⟩

/-- A state in which both cases occur: value 1 hangs on the cell of value 0, value 2 does not. -/
example : ∃ s, Reach s ∧ HangsOn s 1 0 ∧ ¬ (2 = 0 ∨ HangsOn s 2 0) ∧ ∃ s' a, step s (.refTo 0 2) = .ok (s', a) := by
  refine ⟨⟨[⟨.null, 0⟩, ⟨.var 0, 1⟩, ⟨.const 5, 2⟩], [1, 1, 2]⟩, ?_, ⟨1, 1, rfl, rfl, .here⟩, ?_, _, _, rfl⟩
  · exact .step (.step (.step .init (o := .fresh) rfl) (o := .copy 0) rfl) (o := .const 5) rfl
  · rintro (h | ⟨i, j, h1, h2, h3⟩)
    · cases h
    · cases h1; cases h2
      cases h3 with
      | step h4 h5 => cases h4; exact h5 rfl

/-! ### C79: reading -/

/-- A read changes what no value reads. -/
theorem read_keeps {s s' : State} {a : Option Nat} (h : Reach s) {x : Nat} (hs : step s (.read x) = .ok (s', a))
    (y v : Nat) : Reads s' y v ↔ Reads s y v := by
  have hg := h.good
  match hx : s.vals[x]? with
  | none => simp [step, State.get, State.to_none hx, bind, Except.bind] at hs
  | some i =>
    obtain ⟨n, r, h1, h2⟩ := hg.get hx
    simp only [step, h2, bind, Except.bind, pure, Except.pure, Except.ok.injEq, Prod.mk.injEq] at hs
    obtain ⟨rfl, rfl⟩ := hs
    obtain ⟨c, hc, hcr⟩ := h1.isRoot
    rw [hg.reads, (hg.set (x := x) h1.lt).reads]
    by_cases hyx : y = x
    · subst hyx
      constructor
      · rintro ⟨i2, n2, r2, c2, d1, d2, d3, rfl⟩
        dsimp only at d1 d2 d3
        rw [List.getElem?_set_self (get?_some_of hx)] at d1
        cases d1
        obtain ⟨_, rfl⟩ := d2.unique (.root hc hcr)
        exact ⟨i, n, r2, c2, hx, h1, d3, rfl⟩
      · rintro ⟨i2, n2, r2, c2, d1, d2, d3, rfl⟩
        rw [hx] at d1; cases d1
        obtain ⟨_, rfl⟩ := d2.unique h1
        exact ⟨r2, 0, r2, c2, List.getElem?_set_self (get?_some_of hx), .root hc hcr, d3, rfl⟩
    · have hsame : (s.vals.set x r)[y]? = s.vals[y]? := List.getElem?_set_ne (fun e => hyx e.symm)
      constructor
      · rintro ⟨i2, n2, r2, c2, d1, d2⟩
        dsimp only at d1
        rw [hsame] at d1
        exact ⟨i2, n2, r2, c2, d1, d2⟩
      · rintro ⟨i2, n2, r2, c2, d1, d2⟩
        exact ⟨i2, n2, r2, c2, by dsimp only; rw [hsame]; exact d1, d2⟩

/-- The full statement is false: two histories that differ in one more read leave value 0 different. -/
theorem read_harmless_refuted : ∃ (os : List Op) (o : Op) (x y : Nat) (s s' : State) (v w : Nat),
    run init (os ++ [o]) = .ok (s, []) ∧ run init (os ++ [.read x, o]) = .ok (s', [v]) ∧ Reads s y v ∧ Reads s' y w ∧
    v ≠ w :=
  ⟨[.fresh, .copy 0, .const 5, .const 6, .refTo 0 2], .refTo 1 3, 1, 0, _, _, 5, 6, rfl, rfl, ⟨_, rfl⟩, ⟨_, rfl⟩, by decide⟩

/-- Partial: in a history the specification allows, a read put in anywhere gives the value its name stands for and
changes nothing else. -/
theorem read_harmless_partial (os os' : List Op) {I1 I2 : Names} {as1 as2 : List Nat} {x v : Nat}
    (h1 : Spec.run true Spec.start os = some (I1, as1)) (h2 : Spec.run true I1 os' = some (I2, as2))
    (hx : I1.reads x = some v) :
    ∃ s s', run init (os ++ os') = .ok (s, as1 ++ as2) ∧
      run init (os ++ .read x :: os') = .ok (s', as1 ++ v :: as2) ∧ ∀ y w, Reads s y w ↔ Reads s' y w := by
  have e1 : Spec.run true Spec.start (os ++ os') = some (I2, as1 ++ as2) := by rw [spec_run_append h1, h2]; rfl
  obtain ⟨I1', e2, e3⟩ := spec_read_more hx
  obtain ⟨I2', e4, e5⟩ := spec_run_more e3 h2
  have e6 : Spec.run true Spec.start (os ++ .read x :: os') = some (I2', as1 ++ v :: as2) := by
    rw [spec_run_append h1]
    simp [Spec.run, e2, e4]
  obtain ⟨s, r1, r2⟩ := values_history_partial _ e1
  obtain ⟨s', r3, r4⟩ := values_history_partial _ e6
  refine ⟨s, s', r1, r3, fun y w => ?_⟩
  rw [r2, r4, e5.reads]

example : ∃ I1 I2, Spec.run true Spec.start [.fresh, .copy 0, .const 5] = some (I1, []) ∧
    Spec.run true I1 [.refTo 0 2, .read 1] = some (I2, [5]) ∧ I1.reads 1 = some 0 := ⟨_, _, rfl, rfl, rfl⟩

/-! ### C80: values made with `special_init` -/

/-- Partial: after a history the specification allows, a new `special_init` value reads as void, also after an assignment
to it. -/
theorem special_init_partial (os : List Op) {I : Names} {as : List Nat} (p : Nat)
    (h : Spec.run true Spec.start os = some (I, as)) :
    ∃ s, run init (os ++ [.null, .assign I.names.length p, .read I.names.length]) = .ok (s, as ++ [0]) := by
  have : Spec.run true Spec.start (os ++ [.null, .assign I.names.length p, .read I.names.length]) =
      some (⟨I.names ++ [⟨I.places.length, true⟩], I.places ++ [.null]⟩, as ++ [0]) := by
    rw [spec_run_append h]
    simp [Spec.run, Spec.step, Names.fresh, Data.set, Data.get]
  obtain ⟨s, h1, _⟩ := values_history_partial _ this
  exact ⟨s, h1⟩

/-- A new `special_init` value reads what the values that hang on the null data read. -/
theorem special_init_characterised {s : State} (h : Reach s) {x : Nat} (hx : OnNull s x) (v : Nat) :
    (∃ s', step s .null = .ok (s', none) ∧ Reads s' s.vals.length v) ↔ Reads s x v := by
  have hg := h.good
  obtain ⟨i, hi, hv⟩ := hx
  obtain ⟨n, r, h1, _⟩ := hg.chain hi
  obtain ⟨m, hm⟩ := h1.of_visits hv
  have key : NullReads s v ↔ Reads s x v := by
    rw [hg.reads]
    constructor
    · rintro ⟨n', r', c, e1, e2, rfl⟩
      obtain ⟨_, rfl⟩ := hm.unique e1
      exact ⟨i, n, r, c, hi, h1, e2, rfl⟩
    · rintro ⟨i', n', r', c, e1, e2, e3, rfl⟩
      rw [hi] at e1; cases e1
      obtain ⟨_, rfl⟩ := h1.unique e2
      exact ⟨m, r, c, hm, e3, rfl⟩
  rw [← key, nullReads_iff hg]
  constructor
  · rintro ⟨s', h1, h2⟩
    cases h1; exact h2
  · intro h; exact ⟨_, rfl, h⟩

/-- The full statement is false: giving up one `special_init` value for another value changes all, also those made
later. -/
theorem special_init_refuted : ∃ (os : List Op) (s s' : State),
    run init os = .ok (s, []) ∧ step s .null = .ok (s', none) ∧ Reads s' s.vals.length 5 :=
  ⟨[.null, .const 5, .refTo 0 1], _, _, rfl, rfl, ⟨_, rfl⟩⟩

/-! ### C81: code lists -/

/-- A code list that comes to an end: its answer and all values that hang on the null data read the outcome, all other
values what they read before. -/
theorem code_list_characterised {s : State} (h : Reach s) {l t : List Stmt} (hr : Runs l 0 t)
    (hu : ∀ x, Stmt.call x ∈ t → x < s.vals.length) {cur : Nat} (hc : Reads (s.push 0) s.vals.length cur) :
    ∃ F, ∀ fuel, F ≤ fuel → ∃ s' v, evalList s l fuel = .ok s' ∧ Outcome s cur t v ∧ Reads s' s.vals.length v ∧
      (∀ x, OnNull s x → Reads s' x v) ∧ (∀ x w, ¬ OnNull s x → (Reads s x w → Reads s' x w)) := by
  have hg := h.good
  have hu' : ∀ st ∈ t, ∀ x ∈ st.uses, x < s.vals.length := by
    intro st hst x hx
    cases st with
    | call y => simp [Stmt.uses] at hx; subst hx; exact hu x hst
    | node | goto | ret => simp [Stmt.uses] at hx
  obtain ⟨F, hF⟩ := evalFrom_ok hr hg hu'
  refine ⟨F, fun fuel hf => ?_⟩
  obtain ⟨s1, v, e1, e2, e3, e4, e5, e6⟩ := hF fuel hf s cur hg (Agree.refl _) rfl ((nullReads_iff hg).2 hc)
  refine ⟨s1.push 0, v, by simp [evalList, e1, bind, Except.bind, pure, Except.pure], e6, ?_, ?_, ?_⟩
  · rw [← e4]; exact (nullReads_iff e2).1 e5
  · rintro x ⟨i, hi, hv⟩
    obtain ⟨n, r, h1, _⟩ := hg.chain hi
    have hv' := (e3.visits h1).1 hv
    have hi' : (s1.push 0).vals[x]? = some i := by
      simp only [State.push, e4]
      rw [List.getElem?_append_left (get?_some_of hi)]; exact hi
    have hg' := e2.push (i := 0) e2.pos
    obtain ⟨n', r', h1', _⟩ := hg'.chain hi'
    obtain ⟨m, hm⟩ := Chain.of_visits (a := s1.cells) h1' hv'
    obtain ⟨n2, r2, c2, a1, a2, a3⟩ := e5
    obtain ⟨_, rfl⟩ := hm.unique a1
    exact hg'.reads.2 ⟨i, n', r', c2, hi', h1', a2, a3⟩
  · intro x w hx hw
    obtain ⟨i, n, r, c, a1, a2, a3, a4⟩ := hg.reads.1 hw
    have hv : ¬ Visits s.cells i 0 := fun hv => hx ⟨i, a1, hv⟩
    have hg' := e2.push (i := 0) e2.pos
    refine hg'.reads.2 ⟨i, n, r, c, ?_, e3.chain a2 hv, e3 r c (a2.not_visits hv) a3, a4⟩
    simp only [State.push, e4]
    rw [List.getElem?_append_left (get?_some_of a1)]; exact a1

/-- Partial: the answer is the value of the last element evaluated when this is a node, or a call that answers with a
value that does not hang on the null data. -/
theorem code_list_result_partial {s : State} (h : Reach s) {l t : List Stmt} {st : Stmt} {v : Nat}
    (hr : Runs l 0 (t ++ [st])) (hu : ∀ x, Stmt.call x ∈ t ++ [st] → x < s.vals.length)
    (hst : st = .node v ∨ ∃ x, st = .call x ∧ ¬ OnNull s x ∧ Reads s x v) :
    ∃ F, ∀ fuel, F ≤ fuel → ∃ s', evalList s l fuel = .ok s' ∧ Reads s' s.vals.length v := by
  obtain ⟨cur, hc⟩ := h.good.nullReads
  obtain ⟨F, hF⟩ := code_list_characterised h hr hu ((nullReads_iff h.good).1 hc)
  refine ⟨F, fun fuel hf => ?_⟩
  obtain ⟨s', w, e1, e2, e3, _⟩ := hF fuel hf
  refine ⟨s', e1, ?_⟩
  have out : ∀ (t : List Stmt) (cur w : Nat), Outcome s cur (t ++ [st]) w → w = v := by
    intro t
    induction t with
    | nil =>
      intro cur w ho
      rcases hst with rfl | ⟨x, rfl, hx, hv⟩
      · cases ho with
        | node ho => cases ho; rfl
      · cases ho with
        | call h1 h2 ho =>
          cases ho
          rename_i w'
          obtain ⟨i, n, r, c, a1, a2, a3, rfl⟩ := h.good.reads.1 hv
          obtain ⟨i', n', r', c', b1, b2, b3, rfl⟩ := h.good.reads.1 h2
          rw [a1] at b1; cases b1
          obtain ⟨_, rfl⟩ := a2.unique b2
          rw [a3] at b3; cases b3; rfl
        | callNull h1 => exact absurd h1 hx
    | cons a t ih =>
      intro cur w ho
      cases ho with
      | node ho => exact ih _ _ ho
      | call _ _ ho => exact ih _ _ ho
      | callNull _ ho => exact ih _ _ ho
  rw [← out t cur w e2]
  exact e3

/-- A code list with a jump that comes to an end, in a state with a value that does not hang on the null data. -/
example : ∃ (s : State) (l t : List Stmt), Reach s ∧ Runs l 0 (t ++ [.call 0]) ∧ ¬ OnNull s 0 ∧ Reads s 0 5 := by
  refine ⟨⟨[⟨.null, 0⟩, ⟨.const 5, 1⟩], [1]⟩, [.node 3, .goto 3, .ret, .call 0], [.node 3],
    .step .init (o := .const 5) rfl, ?_, ?_, ⟨_, rfl⟩⟩
  · refine .next (st := .node 3) rfl (by simp) (by simp) (by simp) ?_
    exact .goto (j := 3) rfl (.last rfl (by simp) (by simp) rfl)
  · rintro ⟨i, h1, h2⟩
    cases h1
    cases h2 with
    | step h4 h5 => cases h4; exact h5 rfl

/-- The full statement is false: the answer of one code list changes when another code list is evaluated. -/
theorem code_list_answer_refuted : ∃ s1 s2, evalList init [.node 5] 1 = .ok s1 ∧ Reads s1 0 5 ∧
    evalList s1 [.node 6] 1 = .ok s2 ∧ Reads s2 0 6 := ⟨_, _, rfl, ⟨_, rfl⟩, rfl, ⟨_, rfl⟩⟩

/-- A code list that returns at once answers with what the code list before it answered. -/
theorem code_list_return_refuted : ∃ s1 s2, evalList init [.node 5] 1 = .ok s1 ∧ evalList s1 [.ret] 1 = .ok s2 ∧
    Reads s2 1 5 := ⟨_, _, rfl, rfl, ⟨_, rfl⟩⟩

/-- Evaluating a code list changes what a `special_init` value made before it reads. -/
theorem code_list_others_refuted : ∃ s s', step init .null = .ok (s, none) ∧ Reads s 0 0 ∧
    evalList s [.node 5] 1 = .ok s' ∧ Reads s' 0 5 := ⟨_, _, rfl, ⟨_, rfl⟩, rfl, ⟨_, rfl⟩⟩

/-- Calling for the answer of an earlier code list gives what was evaluated just before instead. -/
theorem code_list_call_refuted : ∃ s1 s2, evalList init [.node 5] 1 = .ok s1 ∧ Reads s1 0 5 ∧
    evalList s1 [.node 6, .call 0] 2 = .ok s2 ∧ Reads s2 1 6 := ⟨_, _, rfl, ⟨_, rfl⟩, rfl, ⟨_, rfl⟩⟩

end ELC.Val
