import Verif.Cow.Lemmas
/-! Shared values copied when changed: C42. -/
namespace ELC.Cow

open Spec

variable {V : Type}

theorem value_set {p : Plain V} {x y : Nat} {v w : V} (h : value p x = some v) :
    value { p with values := p.values.set y (some w) } x = some (if x = y then w else v) := by
  unfold value at h ⊢
  cases hp : p.values[x]? with
  | none => rw [hp] at h; cases h
  | some a =>
    by_cases hxy : x = y
    · subst hxy
      dsimp only
      rw [List.getElem?_set_self (get_lt hp), if_pos rfl]; rfl
    · dsimp only
      rw [List.getElem?_set_ne (Ne.symm hxy), if_neg hxy]; exact h

theorem rel_reset {s : State V} {p : Plain V} (r : Rel s p) {x y c : Nat} {a b : V} (hx : value p x = some a) (hy : value p y = some b)
    (hc : handle s y = some c) : ∃ s', reset s x c = some s' ∧ Rel s' { p with values := p.values.set x (some b) } := by
  obtain ⟨old, o, h1, h2, h3, h4⟩ := rel_handle r hx
  obtain ⟨c', o', g1, g2, g3, g4⟩ := rel_handle r hy
  rw [hc] at g1; injection g1 with g1; subst g1
  obtain ⟨cs, e, i, v⟩ := reset_ok r.inv h1 (get_lt g2)
  refine ⟨_, e, i, ?_, r.out⟩
  dsimp only
  rw [map_set_val (fun d _ => v.2 d), r.values]
  congr 1
  rw [Option.bind_some, v.2, val, g2, Option.map_some, g4]

theorem exec_rel {eq : V → V → Bool} (heq : ∀ a b, eq a b = true → a = b) {s : State V} {p p' : Plain V} (r : Rel s p) {op : Op V}
    (hno : NoMakeFrom op) (e : Spec.exec eq p op = some p') : ∃ s', exec eq s op = some s' ∧ Rel s' p' := by
  cases op with
  | make v =>
    simp only [Spec.exec, Option.some.injEq] at e; subst e
    refine ⟨_, rfl, ⟨?_, ?_, fun d hd => by cases hd⟩, ?_, r.out⟩
    · intro d o' hd
      dsimp only at hd ⊢
      have hnew : s.handles.count (some s.cells.length) = 0 := by
        rw [List.count_eq_zero]; intro hm; exact absurd (r.inv.lt _ hm) (by omega)
      by_cases hlt : d < s.cells.length
      · rw [List.getElem?_append_left hlt] at hd
        have := r.inv.refs d o' hd
        have hne : ¬ s.cells.length = d := by omega
        simp [List.count_cons, hne] at this ⊢; exact this
      · have hlt' := get_lt hd
        simp at hlt'
        have : d = s.cells.length := by omega
        subst this
        rw [List.getElem?_append_right (by omega)] at hd
        simp at hd; subst hd
        simp [hnew]
    · intro d hd
      rcases List.mem_append.1 hd with h | h
      · have := r.inv.lt d h; simp; omega
      · simp at h; subst h; simp
    · dsimp only
      rw [List.map_append, ← r.values]
      congr 1
      · apply List.map_congr_left
        intro h hh
        cases h with
        | none => rfl
        | some c => simp [val, List.getElem?_append_left (r.inv.lt c hh)]
      · simp [val]
  | makeFrom v => cases hno
  | copy y =>
    simp only [Spec.exec, Option.map_eq_some_iff] at e
    obtain ⟨v, hv, rfl⟩ := e
    obtain ⟨c, o, h1, h2, h3, h4⟩ := rel_handle r hv
    obtain ⟨cs, e1, i1, v1⟩ := addRef_ok r.inv (get_lt h2)
    refine ⟨{ s with cells := cs, handles := s.handles ++ [some c] }, by simp only [exec, h1, Option.bind_some, e1, Option.map_some],
      ⟨?_, ?_, fun d hd => by cases hd⟩, ?_, r.out⟩
    · intro d o' hd
      have := i1.refs d o' hd
      simp [List.count_cons] at this ⊢; omega
    · intro d hd
      rcases List.mem_append.1 hd with h | h
      · exact i1.lt d h
      · simp at h; subst h; rw [v1.1]; exact get_lt h2
    · dsimp only
      rw [List.map_append, ← r.values]
      congr 1
      · apply List.map_congr_left
        intro h hh
        cases h with
        | none => rfl
        | some c => simp [v1.2]
      · simp only [List.map_cons, List.map_nil, Option.bind_some]
        rw [v1.2, val, h2, Option.map_some, h4]
  | assign x y =>
    simp only [Spec.exec, Option.bind_eq_some_iff, Option.map_eq_some_iff] at e
    obtain ⟨a, ha, b, hb, rfl⟩ := e
    obtain ⟨c, o, h1, _⟩ := rel_handle r hb
    obtain ⟨s', e1, r1⟩ := rel_reset r ha hb h1
    exact ⟨s', by simp only [exec, h1, Option.bind_some, e1], r1⟩
  | assignValue x y =>
    simp only [Spec.exec, Option.bind_eq_some_iff, Option.map_eq_some_iff] at e
    obtain ⟨a, ha, b, hb, rfl⟩ := e
    obtain ⟨s1, c1, o1, e1, r1, f1, f2, f3, f4, f5, _, _, _⟩ := rel_copyCheck r ha
    obtain ⟨s2, c2, o2, e2, r2, g1, g2, g3, g4, g5, _, _, g6⟩ := rel_copyCheck r1 hb
    have hget : get s2 y = some b := by simp [get, g1, g5, g4]
    have hx : ∃ c o, handle s2 x = some c ∧ s2.cells[c]? = some o ∧ o.refs = 1 ∧ cell s2.cells c = some o := by
      by_cases hxy : x = y
      · subst hxy; exact ⟨c2, o2, g1, g2, g3, g5⟩
      · have hcnt : s1.handles.count (some c1) = 1 := by have := r1.inv.refs c1 o1 f2; simp at this; omega
        obtain ⟨h1, h2⟩ := g6 x c1 hxy f1 hcnt
        obtain ⟨o, h3, h4⟩ := handle_val r2.inv h1
        have := r2.inv.refs c1 o h3
        exact ⟨c1, o, h1, h3, by simp at this; omega, h4⟩
    obtain ⟨c, o, h1, h2, h3, h4⟩ := hx
    exact ⟨_, by simp only [exec, e1, e2, hget, h1, h4, Option.bind_some, Option.map_some], rel_change r2 h1 h2 h3 b⟩
  | swap x y =>
    simp only [Spec.exec, Option.bind_eq_some_iff, Option.map_eq_some_iff] at e
    obtain ⟨a, ha, b, hb, rfl⟩ := e
    obtain ⟨c, o, h1, h2, h3, h4⟩ := rel_handle r ha
    obtain ⟨d, q, g1, g2, g3, g4⟩ := rel_handle r hb
    have hset : (s.handles.set x (some d))[y]? = some (some d) := by
      by_cases hxy : x = y
      · subst hxy; rw [List.getElem?_set_self (get_lt (handle_get h1))]
      · rw [List.getElem?_set_ne hxy]; exact handle_get g1
    refine ⟨{ s with handles := (s.handles.set x (some d)).set y (some c) }, by simp only [exec, h1, g1, Option.bind_some, Option.map_some],
      ⟨?_, ?_, fun d hd => by cases hd⟩, ?_, r.out⟩
    · intro e oe he
      have k := r.inv.refs e oe he
      have k1 := count_set_opt (handle_get h1) (some d) (some e)
      have k2 := count_set_opt hset (some c) (some e)
      dsimp only; omega
    · intro e he
      rcases List.mem_or_eq_of_mem_set he with h | h
      · rcases List.mem_or_eq_of_mem_set h with h | h
        · exact r.inv.lt e h
        · injection h with h; subst h; exact get_lt g2
      · injection h with h; subst h; exact get_lt h2
    · dsimp only
      rw [map_set_val (fun _ _ => rfl), map_set_val (fun _ _ => rfl), r.values]
      simp [val, h2, g2, h4, g4]
  | modify x f =>
    simp only [Spec.exec, Option.map_eq_some_iff] at e
    obtain ⟨a, ha, rfl⟩ := e
    obtain ⟨s1, c1, o1, e1, r1, f1, f2, f3, f4, f5, _⟩ := rel_copyCheck r ha
    refine ⟨_, by simp only [exec, e1, f1, f5, Option.bind_some, Option.map_some]; rfl, ?_⟩
    rw [f4]
    exact rel_change r1 f1 f2 f3 (f a)
  | equal x y =>
    simp only [Spec.exec, Option.bind_eq_some_iff, Option.map_eq_some_iff] at e
    obtain ⟨a, ha, b, hb, rfl⟩ := e
    obtain ⟨c, o, h1, h2, h3, h4⟩ := rel_handle r ha
    obtain ⟨d, q, g1, g2, g3, g4⟩ := rel_handle r hb
    have hga : get s x = some a := by simp [get, h1, h3, h4]
    have hgb : get s y = some b := by simp [get, g1, g3, g4]
    by_cases hab : eq a b = true
    · obtain ⟨s', e1, r1⟩ := rel_reset r ha hb g1
      refine ⟨{ s' with out := s'.out ++ [true] }, by simp only [exec, hga, hgb, Option.bind_some, hab, if_true, g1, e1, Option.map_some],
        r1.inv, ?_, ?_⟩
      · have h5 := r1.values
        have h6 := heq a b hab
        subst h6
        dsimp only at h5 ⊢
        rw [h5]
        unfold value at ha
        cases hp : p.values[x]? with
        | none => rw [hp] at ha; cases ha
        | some z => rw [hp] at ha; simp at ha; subst ha; exact set_same hp
      · have := r1.out
        dsimp only at this ⊢
        rw [this, hab]
    · refine ⟨{ s with out := s.out ++ [false] }, by simp only [exec, hga, hgb, Option.bind_some, if_neg hab], r.inv, r.values, ?_⟩
      dsimp only
      rw [r.out, (Bool.not_eq_true _).mp hab]
  | drop x =>
    simp only [Spec.exec, Option.map_eq_some_iff] at e
    obtain ⟨a, ha, rfl⟩ := e
    obtain ⟨c, o, h1, h2, h3, h4⟩ := rel_handle r ha
    have i0 : Inv s.cells (s.handles.set x none) [c] := by
      refine ⟨?_, ?_, ?_⟩
      · intro d q hq
        have k := r.inv.refs d q hq
        have k1 := count_set_opt (handle_get h1) none (some d)
        simp [List.count_cons] at k k1 ⊢; omega
      · intro d hd
        rcases List.mem_or_eq_of_mem_set hd with h | h
        · exact r.inv.lt d h
        · cases h
      · intro d hd; simp at hd; subst hd; exact get_lt h2
    obtain ⟨cs, e1, i1, v1⟩ := cutRef_ok i0
    refine ⟨{ s with cells := cs, handles := s.handles.set x none }, by simp only [exec, h1, Option.bind_some, e1, Option.map_some], i1, ?_, r.out⟩
    dsimp only
    rw [map_set_val (fun d _ => v1.2 d), r.values]; rfl
  | keep x => simp [Spec.exec] at e
  | write x f => simp [Spec.exec] at e

/-- C42: for every history of default construction, copies, assignments, exchanges, changes, comparisons and ends of handles, the
handles read as if each had a value of its own, and comparisons give the same results; provided only equal values compare equal. -/
theorem handles_isolated_partial {eq : V → V → Bool} (heq : ∀ a b, eq a b = true → a = b) {ops : List (Op V)}
    (hno : ∀ op ∈ ops, NoMakeFrom op) {p : Plain V} (e : Spec.run eq start ops = some p) :
    ∃ s, run eq init ops = some s ∧ Shows s p ∧ NoLeak s := by
  have key : ∀ (ops : List (Op V)) {s : State V} {q : Plain V}, Rel s q → (∀ op ∈ ops, NoMakeFrom op) → Spec.run eq q ops = some p →
      ∃ s', run eq s ops = some s' ∧ Rel s' p := by
    intro ops
    induction ops with
    | nil => intro s q r _ e; simp only [Spec.run, Option.some.injEq] at e; subst e; exact ⟨s, rfl, r⟩
    | cons op ops ih =>
      intro s q r hno e
      simp only [Spec.run, Option.bind_eq_some_iff] at e
      obtain ⟨q1, e1, e2⟩ := e
      obtain ⟨s1, e3, r1⟩ := exec_rel heq r (hno op (List.mem_cons_self ..)) e1
      obtain ⟨s2, e4, r2⟩ := ih r1 (fun o ho => hno o (List.mem_cons_of_mem _ ho)) e2
      exact ⟨s2, by rw [run, e3]; exact e4, r2⟩
  have r0 : Rel (init : State V) start :=
    ⟨⟨fun c o h => by simp [init] at h, fun c h => by simp [init] at h, fun c h => by cases h⟩, rfl, rfl⟩
  obtain ⟨s, e1, r1⟩ := key ops r0 hno e
  refine ⟨s, e1, ⟨?_, r1.out⟩, fun c o h => ?_⟩
  · rw [reads_eq r1.inv]; exact r1.values
  · have := r1.inv.refs c o h
    simpa using this

theorem reset_kept {s s' : State V} {x c : Nat} (e : reset s x c = some s') : s'.kept = s.kept := by
  simp only [reset, Option.bind_eq_some_iff, Option.map_eq_some_iff] at e
  obtain ⟨_, _, _, _, _, _, rfl⟩ := e
  rfl

theorem copyCheck_kept {s s' : State V} {x : Nat} (e : copyCheck s x = some s') : s'.kept = s.kept := by
  simp only [copyCheck, Option.bind_eq_some_iff] at e
  obtain ⟨_, _, _, _, e⟩ := e
  split_ifs at e
  · injection e with e; rw [e]
  · have := reset_kept e; exact this

theorem exec_kept {eq : V → V → Bool} {s s' : State V} {p p' : Plain V} {op : Op V} (e : Spec.exec eq p op = some p')
    (h : exec eq s op = some s') : s'.kept = s.kept := by
  cases op with
  | make v => simp only [exec, Option.some.injEq] at h; subst h; rfl
  | makeFrom v => simp [exec, addRef] at h
  | copy y =>
    simp only [exec, Option.bind_eq_some_iff, Option.map_eq_some_iff] at h
    obtain ⟨_, _, _, _, rfl⟩ := h; rfl
  | assign x y =>
    simp only [exec, Option.bind_eq_some_iff] at h
    obtain ⟨_, _, h⟩ := h; exact reset_kept h
  | assignValue x y =>
    simp only [exec, Option.bind_eq_some_iff, Option.map_eq_some_iff] at h
    obtain ⟨_, h1, _, h2, _, _, _, _, _, _, rfl⟩ := h
    exact (copyCheck_kept h2).trans (copyCheck_kept h1)
  | swap x y =>
    simp only [exec, Option.bind_eq_some_iff, Option.map_eq_some_iff] at h
    obtain ⟨_, _, _, _, rfl⟩ := h; rfl
  | modify x f =>
    simp only [exec, Option.bind_eq_some_iff, Option.map_eq_some_iff] at h
    obtain ⟨_, h1, _, _, _, _, rfl⟩ := h
    have := copyCheck_kept h1; exact this
  | equal x y =>
    simp only [exec, Option.bind_eq_some_iff] at h
    obtain ⟨_, _, _, _, h⟩ := h
    split_ifs at h
    · simp only [Option.map_eq_some_iff, Option.bind_eq_some_iff] at h
      obtain ⟨_, ⟨_, _, h⟩, rfl⟩ := h
      have := reset_kept h; exact this
    · injection h with h; subst h; rfl
  | drop x =>
    simp only [exec, Option.bind_eq_some_iff, Option.map_eq_some_iff] at h
    obtain ⟨_, _, _, _, rfl⟩ := h; rfl
  | keep x => simp [Spec.exec] at e
  | write x f => simp [Spec.exec] at e

theorem run_append (eq : V → V → Bool) (ops ops' : List (Op V)) : ∀ s : State V,
    run eq s (ops ++ ops') = (run eq s ops).bind fun s => run eq s ops' := by
  induction ops with
  | nil => intro s; rfl
  | cons op ops ih =>
    intro s
    simp only [List.cons_append, run]
    cases exec eq s op with
    | none => rfl
    | some s1 => simpa using ih s1

/-- C42: a reference taken to the value of a handle, after any such history, changes that handle only, however often it is written
through, as long as the handles are left alone meanwhile. -/
theorem reference_isolated_partial {eq : V → V → Bool} (heq : ∀ a b, eq a b = true → a = b) {ops : List (Op V)}
    (hno : ∀ op ∈ ops, NoMakeFrom op) {p : Plain V} (e : Spec.run eq start ops = some p) {x : Nat} {v : V} (hv : value p x = some v)
    (fs : List (V → V)) :
    ∃ s, run eq init (ops ++ .keep x :: fs.map (.write 0)) = some s ∧
      Shows s { p with values := p.values.set x (some (fs.foldl (fun v f => f v) v)) } ∧ NoLeak s := by
  have key : ∀ (ops : List (Op V)) {s : State V} {q : Plain V}, Rel s q → s.kept = [] → (∀ op ∈ ops, NoMakeFrom op) →
      Spec.run eq q ops = some p → ∃ s', run eq s ops = some s' ∧ Rel s' p ∧ s'.kept = [] := by
    intro ops
    induction ops with
    | nil => intro s q r hk _ e; simp only [Spec.run, Option.some.injEq] at e; subst e; exact ⟨s, rfl, r, hk⟩
    | cons op ops ih =>
      intro s q r hk hno e
      simp only [Spec.run, Option.bind_eq_some_iff] at e
      obtain ⟨q1, e1, e2⟩ := e
      obtain ⟨s1, e3, r1⟩ := exec_rel heq r (hno op (List.mem_cons_self ..)) e1
      obtain ⟨s2, e4, r2⟩ := ih r1 ((exec_kept e1 e3).trans hk) (fun o ho => hno o (List.mem_cons_of_mem _ ho)) e2
      exact ⟨s2, by rw [run, e3]; exact e4, r2⟩
  have r0 : Rel (init : State V) start :=
    ⟨⟨fun c o h => by simp [init] at h, fun c h => by simp [init] at h, fun c h => by cases h⟩, rfl, rfl⟩
  obtain ⟨s1, e1, r1, k1⟩ := key ops r0 rfl hno e
  obtain ⟨s2, c, o, e2, r2, h2, g2, u2, v2, _, k2, _⟩ := rel_copyCheck r1 hv
  rw [run_append, e1, Option.bind_some, run]
  simp only [exec, e2, Option.bind_some, h2, Option.map_some]
  have writes : ∀ (fs : List (V → V)) {s : State V} {p : Plain V} {o : Cell V}, Rel s p → value p x = some o.value → handle s x = some c →
      s.cells[c]? = some o → o.refs = 1 → s.kept = [c] → ∃ s', run eq s (fs.map (.write 0)) = some s' ∧
        Rel s' { p with values := p.values.set x (some (fs.foldl (fun v f => f v) o.value)) } := by
    intro fs
    induction fs with
    | nil =>
      intro s p o r hv _ _ _ _
      refine ⟨s, rfl, r.inv, ?_, r.out⟩
      rw [r.values]
      unfold value at hv
      cases hp : p.values[x]? with
      | none => rw [hp] at hv; cases hv
      | some a => rw [hp] at hv; simp at hv; subst hv; exact (set_same hp).symm
    | cons f fs ih =>
      intro s p o r hv hx ho hu hk
      have r3 := rel_change r hx ho hu (f o.value)
      have hclt := get_lt ho
      obtain ⟨s', e', r'⟩ := ih (o := { o with value := f o.value }) r3 (by rw [value_set hv, if_pos rfl]) hx
        (by dsimp only; rw [List.getElem?_set_self hclt]) hu hk
      refine ⟨s', ?_, ?_⟩
      · simp only [List.map_cons, run, exec, hk, List.getElem?_cons_zero, Option.bind_some, cell_pos ho (by omega), Option.map_some]
        rw [hk] at e'; exact e'
      · simpa [List.set_set] using r'
  obtain ⟨s3, e3, r3⟩ := writes fs (s := { s2 with kept := s2.kept ++ [c] }) (o := o) ⟨r2.inv, r2.values, r2.out⟩ (by rw [hv, v2]) h2 g2 u2
    (by simp [k2, k1])
  rw [v2] at r3
  refine ⟨s3, e3, ⟨?_, r3.out⟩, fun c o h => ?_⟩
  · rw [reads_eq r3.inv]; exact r3.values
  · have := r3.inv.refs c o h
    simpa using this

/-- C42 fails as it stands, in three ways: a reference kept across a copy changes the copy too; comparing values that compare equal
but differ changes what a handle reads; and the constructor from arguments uses a null pointer. -/
theorem handles_isolated_refuted :
    (∃ s, run (fun a b : Nat => a == b) init [.make 0, .keep 0, .copy 0, .write 0 fun _ => 7] = some s ∧ reads s = [some 7, some 7]) ∧
    (∃ s, run (fun _ _ : Nat => true) init [.make 0, .make 1, .equal 0 1] = some s ∧ reads s = [some 1, some 1]) ∧
    (∀ (eq : V → V → Bool) (s : State V) (v : V), exec eq s (.makeFrom v) = none) :=
  ⟨⟨_, rfl, rfl⟩, ⟨_, rfl, rfl⟩, fun _ _ _ => rfl⟩

/-! ### sharing, a change of one of the sharing handles, a comparison that merges, a change again -/

def history : List (Op Nat) :=
  [.make 1, .copy 0, .copy 1, .modify 1 (· + 4), .assign 2 1, .modify 2 fun _ => 1, .equal 0 2, .modify 0 (· + 8), .assignValue 1 0,
    .swap 0 2, .drop 1]

example : Spec.run (fun a b => a == b) start history = some ⟨[some 1, none, some 9], [true]⟩ := by decide
example : (run (fun a b => a == b) init history).map (fun s => (reads s, s.out)) = some ([some 1, none, some 9], [true]) := by decide

end ELC.Cow
