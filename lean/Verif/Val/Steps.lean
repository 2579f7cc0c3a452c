import Verif.Val.Lemmas
/-!
Each operation, in every state a program can reach.
-/
namespace ELC.Val

/-- All chains end and all values have cells. -/
structure Good (s : State) : Prop where
  ends : Ends s.cells
  pos : 0 < s.cells.length
  vals : ∀ i ∈ s.vals, i < s.cells.length

theorem good_init : Good init := by
  refine ⟨?_, by decide, by simp [init]⟩
  intro i hi
  have : i = 0 := by simp [init] at hi; omega
  subst this
  exact ⟨0, 0, .root (c := ⟨.null, 0⟩) rfl rfl, Nat.zero_le _⟩

theorem Good.lt {s : State} (h : Good s) {x i : Nat} (hx : s.vals[x]? = some i) : i < s.cells.length :=
  h.vals i (List.mem_of_getElem? hx)

theorem Good.chain {s : State} (h : Good s) {x i : Nat} (hx : s.vals[x]? = some i) :
    ∃ n r, Chain s.cells i n r ∧ getPtr s.cells i = .ok r := by
  obtain ⟨n, r, h1, h2, _⟩ := h.ends.getPtr (h.lt hx)
  exact ⟨n, r, h1, h2⟩

theorem State.to_some {s : State} {x i : Nat} (h : s.vals[x]? = some i) : s.to x = .ok i := by simp [State.to, h]
theorem State.to_none {s : State} {x : Nat} (h : s.vals[x]? = none) : s.to x = .error .noValue := by simp [State.to, h]

theorem Good.get {s : State} (h : Good s) {x i : Nat} (hx : s.vals[x]? = some i) :
    ∃ n r, Chain s.cells i n r ∧ s.get x = .ok ({ s with vals := s.vals.set x r }, r) := by
  obtain ⟨n, r, h1, h2⟩ := h.chain hx
  exact ⟨n, r, h1, by simp [State.get, State.to_some hx, h2, bind, Except.bind, pure, Except.pure]⟩

theorem mem_set {l : List Nat} {x v j : Nat} (h : j ∈ l.set x v) : j ∈ l ∨ j = v := List.mem_or_eq_of_mem_set h

theorem Good.set {s : State} (h : Good s) {x r : Nat} (hr : r < s.cells.length) :
    Good { s with vals := s.vals.set x r } :=
  ⟨h.ends, h.pos, fun i hi => by
    rcases mem_set hi with h1 | rfl
    · exact h.vals i h1
    · exact hr⟩

theorem Good.push {s : State} (h : Good s) {i : Nat} (hi : i < s.cells.length) : Good (s.push i) :=
  ⟨h.ends, h.pos, fun j hj => by
    simp only [State.push, List.mem_append, List.mem_singleton] at hj
    rcases hj with h1 | rfl
    · exact h.vals j h1
    · exact hi⟩

theorem Good.make {s : State} (h : Good s) (d : Data) : Good (s.make d).1 :=
  ⟨h.ends.append d, by simp [State.make], fun i hi => by
    have := h.vals i hi
    simp [State.make]; omega⟩

theorem Good.replace {s : State} (h : Good s) {i n p j : Nat} (hi : i < s.cells.length) (hp : Chain s.cells j n p) :
    Good { s with cells := beReplaceAs s.cells i p } := by
  obtain ⟨c, hc, hcp⟩ := hp.isRoot
  exact ⟨h.ends.replace hi hc hcp, by rw [beReplaceAs_length]; exact h.pos,
    fun k hk => by rw [beReplaceAs_length]; exact h.vals k hk⟩

theorem Good.data {s : State} (h : Good s) {r : Nat} {c : Cell} (hc : s.cells[r]? = some c) (d : Data) :
    Good { s with cells := s.cells.set r { c with data := d } } :=
  ⟨(sameFwd_set hc d).ends h.ends, by simp [h.pos], fun k hk => by simp; exact h.vals k hk⟩

/-- The names an operation uses. -/
def Op.uses : Op → List Nat
  | .copy x | .assign x _ | .read x | .unRef x => [x]
  | .refTo x z | .reRefTo x z | .shift z x => [x, z]
  | _ => []

/-- Every operation on values that exist comes to an end, in a good state. -/
theorem step_good {s : State} (h : Good s) (o : Op) (ho : ∀ x ∈ o.uses, x < s.vals.length) :
    ∃ s' a, step s o = .ok (s', a) ∧ Good s' := by
  have look : ∀ x ∈ o.uses, ∃ i, s.vals[x]? = some i := fun x hx => ⟨s.vals[x]'(ho x hx), by simp [ho x hx]⟩
  cases o with
  | fresh => exact ⟨_, _, rfl, (h.make _).push (by simp [State.make])⟩
  | null => exact ⟨_, _, rfl, h.push h.pos⟩
  | const p => exact ⟨_, _, rfl, (h.make _).push (by simp [State.make])⟩
  | copy x =>
    obtain ⟨i, hx⟩ := look x (by simp [Op.uses])
    exact ⟨s.push i, none, by simp [step, State.to_some hx, bind, Except.bind, pure, Except.pure], h.push (h.lt hx)⟩
  | assign x p =>
    obtain ⟨i, hx⟩ := look x (by simp [Op.uses])
    obtain ⟨n, r, h1, h2⟩ := h.get hx
    obtain ⟨c, hc, _⟩ := h1.isRoot
    refine ⟨_, none, by simp [step, h2, hc, bind, Except.bind, pure, Except.pure]; rfl, ?_⟩
    exact (h.set (x := x) h1.lt).data hc _
  | read x =>
    obtain ⟨i, hx⟩ := look x (by simp [Op.uses])
    obtain ⟨n, r, h1, h2⟩ := h.get hx
    exact ⟨_, _, by simp only [step, h2, bind, Except.bind, pure, Except.pure]; rfl, h.set (x := x) h1.lt⟩
  | refTo x z =>
    obtain ⟨i, hx⟩ := look x (by simp [Op.uses])
    obtain ⟨j, hz⟩ := look z (by simp [Op.uses])
    obtain ⟨n, p, h1, h2⟩ := h.chain hz
    refine ⟨_, none, by simp [step, State.to_some hx, State.to_some hz, h2, bind, Except.bind, pure, Except.pure]; rfl, ?_⟩
    exact (h.replace (h.lt hx) h1).set (by simpa [beReplaceAs_length] using h1.lt)
  | unRef x =>
    obtain ⟨i, hx⟩ := look x (by simp [Op.uses])
    obtain ⟨n, r, h1, h2⟩ := h.get hx
    obtain ⟨c, hc, _⟩ := h1.isRoot
    cases hd : c.data with
    | null =>
      exact ⟨_, none, by simp [step, h2, hc, hd, bind, Except.bind, pure, Except.pure]; rfl, h.set h1.lt⟩
    | const p =>
      refine ⟨_, none, by simp [step, h2, hc, hd, bind, Except.bind, pure, Except.pure]; rfl, ?_⟩
      exact ((h.set (x := x) h1.lt).make _).set (by simp [State.make])
    | var p =>
      refine ⟨_, none, by simp [step, h2, hc, hd, bind, Except.bind, pure, Except.pure]; rfl, ?_⟩
      exact ((h.set (x := x) h1.lt).make _).set (by simp [State.make])
  | reRefTo x z =>
    obtain ⟨i, hx⟩ := look x (by simp [Op.uses])
    obtain ⟨j, hz⟩ := look z (by simp [Op.uses])
    obtain ⟨n, p, h1, h2⟩ := h.chain hz
    exact ⟨_, none, by simp [step, State.to_some hx, State.to_some hz, h2, bind, Except.bind, pure, Except.pure], h.set (x := x) h1.lt⟩
  | shift z x =>
    obtain ⟨i, hx⟩ := look x (by simp [Op.uses])
    obtain ⟨j, hz⟩ := look z (by simp [Op.uses])
    obtain ⟨n, p, h1, h2⟩ := h.chain hz
    exact ⟨_, none, by simp only [step, State.to_some hx, State.to_some hz, h2, bind, Except.bind, pure, Except.pure],
      h.replace (h.lt hx) h1⟩

/-- An operation on a value that does not exist. -/
theorem step_noValue {s : State} (h : Good s) (o : Op) {x : Nat} (hx : x ∈ o.uses) (hs : ¬ x < s.vals.length) :
    step s o = .error .noValue := by
  have hn : s.vals[x]? = none := by simp; omega
  have look : ∀ y, y < s.vals.length → ∃ i, s.to y = .ok i ∧ ∃ r, getPtr s.cells i = .ok r := fun y hy => by
    have hy' : s.vals[y]? = some s.vals[y] := by simp [hy]
    obtain ⟨n, r, _, h2⟩ := h.chain hy'
    exact ⟨_, State.to_some hy', r, h2⟩
  cases o with
  | fresh => cases hx
  | null => cases hx
  | const => cases hx
  | copy y | assign y _ | read y | unRef y =>
    simp only [Op.uses, List.mem_singleton] at hx
    subst hx
    simp [step, State.get, State.to_none hn, bind, Except.bind]
  | refTo y z | reRefTo y z | shift z y =>
    by_cases hz : z < s.vals.length
    · have : x = y := by
        simp only [Op.uses, List.mem_cons, List.not_mem_nil, or_false] at hx
        rcases hx with rfl | rfl
        · rfl
        · exact absurd hz hs
      subst this
      obtain ⟨j, h1, r, h2⟩ := look z hz
      simp [step, h1, State.to_none hn, bind, Except.bind]
    · have hz : s.vals[z]? = none := by simp; omega
      simp [step, State.to_none hz, bind, Except.bind]

theorem run_good {s : State} (h : Good s) : ∀ {os : List Op} {s' : State} {as : List Nat},
    run s os = .ok (s', as) → Good s' := by
  intro os
  induction os generalizing s with
  | nil => intro s' as hr; cases hr; exact h
  | cons o os ih =>
    intro s' as hr
    by_cases ho : ∀ x ∈ o.uses, x < s.vals.length
    · obtain ⟨s1, a, h1, h2⟩ := step_good h o ho
      simp only [run, h1, bind, Except.bind] at hr
      match h3 : run s1 os with
      | .error e => rw [h3] at hr; cases hr
      | .ok (s2, as') => rw [h3] at hr; cases hr; exact ih h2 h3
    · obtain ⟨x, hx⟩ := Classical.not_forall.1 ho
      obtain ⟨hx, hs⟩ := Classical.not_imp.1 hx
      simp [run, step_noValue h o hx hs, bind, Except.bind] at hr

theorem run_ends {s : State} (h : Good s) : ∀ {os : List Op} {e : Fault}, run s os = .error e → e = .noValue := by
  intro os
  induction os generalizing s with
  | nil => intro e hr; cases hr
  | cons o os ih =>
    intro e hr
    by_cases ho : ∀ x ∈ o.uses, x < s.vals.length
    · obtain ⟨s1, a, h1, h2⟩ := step_good h o ho
      simp only [run, h1, bind, Except.bind] at hr
      match h3 : run s1 os with
      | .error e' => rw [h3] at hr; cases hr; exact ih h2 h3
      | .ok (s2, as') => rw [h3] at hr; cases hr
    · obtain ⟨x, hx⟩ := Classical.not_forall.1 ho
      obtain ⟨hx, hs⟩ := Classical.not_imp.1 hx
      simp only [run, step_noValue h o hx hs, bind, Except.bind, Except.error.injEq] at hr
      exact hr.symm

/-- What a read gives. -/
theorem Good.reads {s : State} (h : Good s) {x v : Nat} : Reads s x v ↔
    ∃ i n r c, s.vals[x]? = some i ∧ Chain s.cells i n r ∧ s.cells[r]? = some c ∧ c.data.get = v := by
  constructor
  · rintro ⟨s', hs⟩
    match hx : s.vals[x]? with
    | none => simp [step, State.get, State.to_none hx, bind, Except.bind] at hs
    | some i =>
      obtain ⟨n, r, h1, h2⟩ := h.get hx
      obtain ⟨c, hc, _⟩ := h1.isRoot
      simp only [step, h2, bind, Except.bind, pure, Except.pure, Except.ok.injEq, Prod.mk.injEq, Option.some.injEq,
        State.value, hc] at hs
      exact ⟨i, n, r, c, rfl, h1, hc, hs.2⟩
  · rintro ⟨i, n, r, c, hx, h1, hc, rfl⟩
    obtain ⟨n', r', h1', h2⟩ := h.get hx
    obtain ⟨_, rfl⟩ := h1.unique h1'
    exact ⟨_, by simp [step, h2, bind, Except.bind, pure, Except.pure, State.value, hc]; rfl⟩

end ELC.Val
