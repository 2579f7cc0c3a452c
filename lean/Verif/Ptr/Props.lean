import Verif.Ptr.Lemmas
/-! Counted pointers: C51. -/
namespace ELC.Ptr

open Spec

/-- The invariant of the states between operations. -/
def StateInv (s : State) : Prop := Inv (rootsOf s.vars) s.heap [] ∧ 0 < s.heap.objs.length

/-- No object has a weak member. -/
def StrongFields (h : Heap) : Prop := ∀ o ∈ h.objs, ∀ r ∈ o.fields, r.weak = false

theorem strongFields_same {h h' : Heap} (sf : StrongFields h) (e : SameFields h h') : StrongFields h' := by
  intro o ho r hr
  obtain ⟨i, hi⟩ := List.getElem?_of_mem ho
  obtain ⟨o', h1, h2, _⟩ := e.2 i o hi
  rw [h2] at hr
  exact sf o' (List.mem_of_getElem? h1) r hr

theorem init_inv : StateInv init := by
  refine ⟨⟨?_, ?_, ?_, ?_, List.nodup_nil, ?_, ?_, ?_, ?_⟩, by decide⟩
  · intro i o h
    cases i with
    | zero => simp [init] at h; subst h; simp [refs, rootsOf, init, cuts]
    | succ i => simp [init] at h
  · intro i o h
    cases i with
    | zero => simp [init] at h; subst h; simp [refs, rootsOf, init, cuts]
    | succ i => simp [init] at h
  · intro r hr; simp [refs, rootsOf, init, cuts] at hr
  · intro i o h
    cases i with
    | zero =>
      simp [init] at h; subst h
      exact ⟨fun _ => rfl, fun h1 => (by cases h1), fun h1 => (by cases h1)⟩
    | succ i => simp [init] at h
  · intro i hi; cases hi
  · intro i o h
    cases i with
    | zero => simp [init] at h; subst h; rfl
    | succ i => simp [init] at h
  · intro i o h
    cases i with
    | zero => simp [init] at h; subst h; rfl
    | succ i => simp [init] at h
  · intro i hi; simp [init] at hi

theorem work_length : ∀ n {h : Heap} {ts : List Task} {h' : Heap}, weight h ts = n → work h ts = some h' →
    h'.objs.length = h.objs.length := by
  intro n
  induction n using Nat.strong_induction_on with
  | _ n ih =>
    intro h ts h' hn e
    cases ts with
    | nil => rw [work_nil] at e; injection e with e; rw [e]
    | cons t ts =>
      rw [work_cons, Option.bind_eq_some_iff] at e
      obtain ⟨p, e1, e2⟩ := e
      rw [ih _ (by rw [← hn]; exact step_weight e1) rfl e2]
      cases t with
      | cut r =>
        obtain ⟨o, h1, _, s, w, _, _, h2⟩ := cutRef_cases e1
        rcases h2 with ⟨_, rfl⟩ | ⟨_, _, _, rfl⟩ | ⟨_, _, _, rfl⟩ <;> simp [Heap.put]
      | clear i =>
        simp only [step, Option.map_eq_some_iff] at e1
        obtain ⟨o, h1, e1⟩ := e1
        cases hc : o.fields <;> rw [hc] at e1 <;> subst e1 <;> simp [Heap.put]
      | destroy i =>
        simp only [step, Option.map_eq_some_iff] at e1
        obtain ⟨o, h1, e1⟩ := e1
        cases hc : o.fields <;> rw [hc] at e1 <;> subst e1 <;> simp [Heap.put]

/-- The last stage of the operations that end a pointer. -/
theorem finish {vars : List (Option Ref)} {h : Heap} {old : Ref} (inv : Inv (rootsOf vars) h [.cut old]) (hl : 0 < h.objs.length) :
    (∀ h', work h [.cut old] = some h' → StateInv ⟨h', vars⟩) ∧
    (StrongFields h → ∃ h', work h [.cut old] = some h' ∧ StrongFields h') := by
  constructor
  · intro h' e
    exact ⟨inv_work _ rfl inv e, by rw [work_length _ rfl e]; exact hl⟩
  · intro sf
    obtain ⟨h', e, nw⟩ := noWeak_work _ rfl inv ⟨sf, by simp [cuts], fun i hi => by simp at hi⟩
    exact ⟨h', e, nw.fields⟩

theorem assign_prep {s : State} (inv : StateInv s) {x : Nat} {old : Ref} (hx : s.var x = some old) {i : Nat} {o : Obj}
    (ho : s.heap.objs[i]? = some o) (hok : 0 < o.strong ∨ (old.weak = true ∧ 0 < o.weakNum)) :
    ∃ h, addRef s.heap ⟨old.weak, i⟩ = some h ∧ Inv (rootsOf (s.vars.set x (some ⟨old.weak, i⟩))) h [.cut old] ∧ SameFields s.heap h := by
  obtain ⟨h, e1, e2, e3, e4⟩ := inv_addRef (r := ⟨old.weak, i⟩) inv.1 ho hok
  refine ⟨h, e1, inv_counts e2 (fun q => ?_) rfl, e3, fun j o' hj => ?_⟩
  · rw [refs_cut]
    have := rootsOf_set (var_get hx) (some ⟨old.weak, i⟩) q
    unfold refs cuts
    simp only [List.count_append, List.count_cons, Option.toList_some, List.count_nil, List.filterMap_nil, beq_iff_eq] at this ⊢
    omega
  · obtain ⟨o, a, b, _, _, c⟩ := e4 j o' hj
    exact ⟨o, a, b, c⟩

theorem alive_strong {s : State} (inv : StateInv s) {i : Nat} : Alive s i ↔ ∃ o, s.heap.objs[i]? = some o ∧ 0 < o.strong := by
  constructor
  · rintro ⟨o, h1, h2⟩
    refine ⟨o, h1, ?_⟩
    obtain ⟨p1, p2, p3⟩ := inv.1.phase _ _ h1
    by_contra hc
    by_cases hw : 0 < o.weakNum
    · rw [p2 (by omega) hw] at h2; cases h2
    · have := p3 (by omega) (by omega)
      split at this
      · rw [this] at h2; cases h2
      · rw [this.1] at h2; cases h2
  · rintro ⟨o, h1, h2⟩
    exact ⟨o, h1, (inv.1.phase _ _ h1).1 h2⟩

theorem var_refs {s : State} {x : Nat} {r : Ref} (h : s.var x = some r) : r ∈ refs (rootsOf s.vars) s.heap [] :=
  List.mem_append.2 (Or.inl (var_mem h))

theorem count_set_one {l : List Ref} {m : Nat} {f : Ref} (hf : l[m]? = some f) (n q : Ref) :
    (l.set m n).count q + (if f = q then 1 else 0) = l.count q + (if n = q then 1 else 0) := by
  induction l generalizing m with
  | nil => cases hf
  | cons b l ih =>
    cases m with
    | zero => simp at hf; subst hf; simp [List.count_cons]; omega
    | succ m =>
      rw [List.getElem?_cons_succ] at hf
      have := ih hf
      simp [List.count_cons]; omega

/-- One operation. -/
theorem exec_step {s : State} (inv : StateInv s) (op : Op) (hr : NoRevival s op) :
    (∀ s', exec s op = some s' → StateInv s') ∧
    (StrongFields s.heap → Valid s op → NoWeakMember s op → ∃ s', exec s op = some s' ∧ StrongFields s'.heap) := by
  cases op with
  | make members =>
    have key : (∀ x ∈ members, ∃ r, s.var x = some r) → ∃ s', exec s (.make members) = some s' ∧ StateInv s' ∧
        (StrongFields s.heap → NoWeakMember s (.make members) → StrongFields s'.heap) := by
      intro hv
      obtain ⟨h', rs, e1, e2, e3, e4⟩ := inv_takeAll (s := s) members inv.1 inv.2 (fun r hr => hr) hv
      have hl : 0 < h'.objs.length := by rw [e3.1]; exact inv.2
      refine ⟨⟨{ h' with objs := h'.objs ++ [⟨.alive, 1, 0, rs⟩] }, s.vars ++ [some ⟨false, h'.objs.length⟩]⟩, ?_, ⟨?_, ?_⟩, ?_⟩
      · simp only [exec, e1, Option.bind_some, addRef_new, Option.map_some]
      · refine inv_counts (inv_new e2 hl) (fun q => ?_) rfl
        have := rootsOf_append s.vars ⟨false, h'.objs.length⟩ q
        unfold refs
        simp only [List.count_append, List.count_cons, beq_iff_eq] at this ⊢
        omega
      · simp
      · intro sf nw o ho r hr
        rcases List.mem_append.1 ho with h1 | h1
        · exact strongFields_same sf e3 o h1 r hr
        · rw [List.mem_singleton] at h1
          subst h1
          exact e4 nw r hr
    constructor
    · intro s' e
      have hv : ∀ x ∈ members, ∃ r, s.var x = some r := by
        simp only [exec, Option.bind_eq_some_iff] at e
        obtain ⟨p, e1, _⟩ := e
        have : ∀ (xs : List Nat) (h : Heap) (p : Heap × List Ref), takeAll s h xs = some p → ∀ x ∈ xs, ∃ r, s.var x = some r := by
          intro xs
          induction xs with
          | nil => intro h p _ x hx; cases hx
          | cons y ys ih =>
            intro h p hp x hx
            simp only [takeAll, Option.bind_eq_some_iff, Option.map_eq_some_iff] at hp
            obtain ⟨r, hr, q, _, q', hq', _⟩ := hp
            rcases List.mem_cons.1 hx with rfl | hx
            · exact ⟨r, hr⟩
            · exact ih _ _ hq' x hx
        exact this _ _ _ e1
      obtain ⟨s'', e1, e2, _⟩ := key hv
      rw [e] at e1; injection e1 with e1; subst e1; exact e2
    · intro sf hv nw
      obtain ⟨s'', e1, _, e3⟩ := key hv
      exact ⟨s'', e1, e3 sf nw⟩
  | copy weak x =>
    have key : ∀ r, s.var x = some r → ∃ s', exec s (.copy weak x) = some s' ∧ StateInv s' ∧
        (StrongFields s.heap → StrongFields s'.heap) := by
      intro r hx
      obtain ⟨h', r', e1, e2, e3, _⟩ := inv_takeRef inv.1 inv.2 (var_refs hx) weak
      refine ⟨⟨h', s.vars ++ [some r']⟩, by simp only [exec, hx, Option.bind_some, e1, Option.map_some], ⟨?_, ?_⟩, fun sf =>
        strongFields_same sf e3⟩
      · refine inv_counts e2 (fun q => ?_) rfl
        have := rootsOf_append s.vars r' q
        unfold refs
        simp only [List.count_append, List.count_cons, beq_iff_eq] at this ⊢
        omega
      · rw [e3.1]; exact inv.2
    constructor
    · intro s' e
      cases hx : s.var x with
      | none => simp [exec, hx] at e
      | some r => obtain ⟨s'', e1, e2, _⟩ := key r hx; rw [e] at e1; injection e1 with e1; subst e1; exact e2
    · rintro sf ⟨r, hx⟩ _
      obtain ⟨s'', e1, _, e3⟩ := key r hx
      exact ⟨s'', e1, e3 sf⟩
  | assign x y =>
    have key : ∀ old r, s.var x = some old → s.var y = some r → ∃ h, exec s (.assign x y) = ((work h [.cut old]).map fun h' =>
        ⟨h', s.vars.set x (some ⟨old.weak, r.to⟩)⟩) ∧ Inv (rootsOf (s.vars.set x (some ⟨old.weak, r.to⟩))) h [.cut old] ∧
        SameFields s.heap h := by
      intro old r hx hy
      obtain ⟨o, ho, hnf, h1, h2⟩ := inv_target inv.1 (var_refs hy)
      have hok : 0 < o.strong ∨ (old.weak = true ∧ 0 < o.weakNum) := by
        cases hw : old.weak
        · left
          obtain ⟨o', ho', hs⟩ := (alive_strong inv).1 (hr old r hx hy hw)
          rw [ho] at ho'; injection ho' with ho'; subst ho'; exact hs
        · simp only [true_and]; exact h2
      obtain ⟨h, e1, e2, e3⟩ := assign_prep inv hx ho hok
      exact ⟨h, by simp only [exec, hx, hy, Option.bind_some, e1], e2, e3⟩
    constructor
    · intro s' e
      cases hx : s.var x with
      | none => simp [exec, hx] at e
      | some old =>
        cases hy : s.var y with
        | none => simp [exec, hx, hy] at e
        | some r =>
          obtain ⟨h, e1, e2, e3⟩ := key old r hx hy
          rw [e1, Option.map_eq_some_iff] at e
          obtain ⟨h', e4, rfl⟩ := e
          exact (finish e2 (by rw [e3.1]; exact inv.2)).1 h' e4
    · rintro sf ⟨⟨old, hx⟩, ⟨r, hy⟩⟩ _
      obtain ⟨h, e1, e2, e3⟩ := key old r hx hy
      obtain ⟨h', e4, e5⟩ := (finish e2 (by rw [e3.1]; exact inv.2)).2 (strongFields_same sf e3)
      exact ⟨_, by rw [e1, e4]; rfl, e5⟩
  | swap x y =>
    have key : ∀ a b, s.var x = some a → s.var y = some b → StateInv ⟨s.heap, (s.vars.set x (some b)).set y (some a)⟩ := by
      intro a b hx hy
      refine ⟨inv_counts inv.1 (fun q => ?_) rfl, inv.2⟩
      have h1 := rootsOf_set (var_get hx) (some b) q
      have h2 : ((s.vars.set x (some b)))[y]? = some (some b) := by
        rw [List.getElem?_set]
        split_ifs with h3 h4
        · rfl
        · have := var_get hx
          rw [List.getElem?_eq_none (by omega)] at this; cases this
        · exact var_get hy
      have h3 := rootsOf_set h2 (some a) q
      unfold refs
      simp only [List.count_append, List.count_cons, Option.toList_some, List.count_nil, beq_iff_eq] at h1 h3 ⊢
      omega
    constructor
    · intro s' e
      cases hx : s.var x with
      | none => simp [exec, hx] at e
      | some a =>
        cases hy : s.var y with
        | none => simp [exec, hx, hy] at e
        | some b =>
          simp only [exec, hx, hy, Option.bind_some] at e
          split_ifs at e
          injection e with e; subst e
          exact key a b hx hy
    · rintro sf ⟨a, b, hx, hy, hw⟩ _
      exact ⟨⟨s.heap, (s.vars.set x (some b)).set y (some a)⟩, by simp only [exec, hx, hy, Option.bind_some, if_pos hw], sf⟩
  | reset x =>
    have key : ∀ old, s.var x = some old → ∃ h, exec s (.reset x) = ((work h [.cut old]).map fun h' =>
        ⟨h', s.vars.set x (some ⟨old.weak, 0⟩)⟩) ∧ Inv (rootsOf (s.vars.set x (some ⟨old.weak, 0⟩))) h [.cut old] ∧
        SameFields s.heap h := by
      intro old hx
      obtain ⟨o, ho, _, hp⟩ := inv_null inv.1 inv.2
      obtain ⟨h, e1, e2, e3⟩ := assign_prep inv hx ho (Or.inl hp)
      exact ⟨h, by simp only [exec, hx, Option.bind_some, e1], e2, e3⟩
    constructor
    · intro s' e
      cases hx : s.var x with
      | none => simp [exec, hx] at e
      | some old =>
        obtain ⟨h, e1, e2, e3⟩ := key old hx
        rw [e1, Option.map_eq_some_iff] at e
        obtain ⟨h', e4, rfl⟩ := e
        exact (finish e2 (by rw [e3.1]; exact inv.2)).1 h' e4
    · rintro sf ⟨old, hx⟩ _
      obtain ⟨h, e1, e2, e3⟩ := key old hx
      obtain ⟨h', e4, e5⟩ := (finish e2 (by rw [e3.1]; exact inv.2)).2 (strongFields_same sf e3)
      exact ⟨_, by rw [e1, e4]; rfl, e5⟩
  | drop x =>
    have key : ∀ old, s.var x = some old → Inv (rootsOf (s.vars.set x none)) s.heap [.cut old] := by
      intro old hx
      refine inv_counts inv.1 (fun q => ?_) rfl
      rw [refs_cut]
      have := rootsOf_set (var_get hx) none q
      unfold refs
      simp only [List.count_append, Option.toList_none, List.count_nil] at this ⊢
      omega
    constructor
    · intro s' e
      cases hx : s.var x with
      | none => simp [exec, hx] at e
      | some old =>
        simp only [exec, hx, Option.bind_some, Option.map_eq_some_iff] at e
        obtain ⟨h', e4, rfl⟩ := e
        exact (finish (key old hx) inv.2).1 h' e4
    · rintro sf ⟨old, hx⟩ _
      obtain ⟨h', e4, e5⟩ := (finish (key old hx) inv.2).2 sf
      exact ⟨_, by simp only [exec, hx, Option.bind_some, e4, Option.map_some]; rfl, e5⟩
  | setField x m y =>
    have key : ∀ a o f r, s.var x = some a → s.var y = some r → s.heap.objs[a.to]? = some o → o.fields[m]? = some f →
        ∃ h o', exec s (.setField x m y) = ((work (h.put a.to { o' with fields := o'.fields.set m ⟨f.weak, r.to⟩ }) [.cut f]).map fun h' =>
          ⟨h', s.vars⟩) ∧ h.objs[a.to]? = some o' ∧
          Inv (rootsOf s.vars) (h.put a.to { o' with fields := o'.fields.set m ⟨f.weak, r.to⟩ }) [.cut f] ∧ SameFields s.heap h ∧
          o'.fields = o.fields := by
      intro a o f r hx hy ho hf
      obtain ⟨oa, hoa, hnfa, _, _⟩ := inv_target inv.1 (var_refs hx)
      rw [ho] at hoa; injection hoa with hoa; subst hoa
      obtain ⟨o2, ho2, hnf, h1, h2⟩ := inv_target inv.1 (var_refs hy)
      have hok : 0 < o2.strong ∨ (f.weak = true ∧ 0 < o2.weakNum) := by
        cases hw : f.weak
        · left
          obtain ⟨o', ho', hs⟩ := (alive_strong inv).1 (hr a o f r hx ho hf hy hw)
          rw [ho2] at ho'; injection ho' with ho'; subst ho'; exact hs
        · simp only [true_and]; exact h2
      obtain ⟨h, e1, e2, e3, e4⟩ := inv_addRef (r := ⟨f.weak, r.to⟩) inv.1 ho2 hok
      obtain ⟨o', ho'⟩ : ∃ o', h.objs[a.to]? = some o' := ⟨_, List.getElem?_eq_getElem (by rw [e3]; exact lt_of_get ho)⟩
      obtain ⟨o'', h3, h4, _, _, h5⟩ := e4 _ _ ho'
      rw [ho] at h3; injection h3 with h3; subst h3
      refine ⟨h, o', ?_, ho', ?_, ⟨e3, fun j q hj => ?_⟩, h4⟩
      · simp only [exec, hx, hy, Option.bind_some, stored_of ho hnfa, hf, e1, stored_of ho' (by rw [h5]; exact hnfa)]
      · refine inv_fields e2 ho' (fun h6 => absurd (h5 ▸ h6) hnfa) (fun q => ?_) rfl
        rw [refs_cut]
        have hc := count_flatMap_set ho' { o' with fields := o'.fields.set m ⟨f.weak, r.to⟩ } q
        have hset := count_set_one (l := o'.fields) (by rw [h4]; exact hf) ⟨f.weak, r.to⟩ q
        unfold refs
        simp only [List.count_append, List.count_cons, beq_iff_eq] at hc ⊢
        dsimp only [Heap.put]
        omega
      · obtain ⟨o, a, b, _, _, c⟩ := e4 j q hj
        exact ⟨o, a, b, c⟩
    constructor
    · intro s' e
      cases hx : s.var x with
      | none => simp [exec, hx] at e
      | some a =>
        cases hy : s.var y with
        | none => simp [exec, hx, hy] at e
        | some r =>
          cases ho : s.heap.stored a.to with
          | none => simp [exec, hx, hy, ho] at e
          | some o =>
            cases hf : o.fields[m]? with
            | none => simp [exec, hx, hy, ho, hf] at e
            | some f =>
              obtain ⟨h, o', e1, e2, e3, e4, _⟩ := key a o f r hx hy (stored_some ho).1 hf
              rw [e1, Option.map_eq_some_iff] at e
              obtain ⟨h', e5, rfl⟩ := e
              exact (finish e3 (by simp only [Heap.put, List.length_set]; rw [e4.1]; exact inv.2)).1 h' e5
    · rintro sf ⟨⟨a, o, f, hx, ho, hf⟩, ⟨r, hy⟩⟩ _
      obtain ⟨h, o', e1, e2, e3, e4, e6⟩ := key a o f r hx hy ho hf
      have sf' := strongFields_same sf e4
      obtain ⟨h', e5, e7⟩ := (finish e3 (by simp only [Heap.put, List.length_set]; rw [e4.1]; exact inv.2)).2 (by
        intro q hq r' hr'
        rcases List.mem_or_eq_of_mem_set hq with h1 | h1
        · exact sf' q h1 r' hr'
        · subst h1
          have hof := sf' o' (List.mem_of_getElem? e2)
          rcases List.mem_or_eq_of_mem_set hr' with h2 | h2
          · exact hof r' h2
          · subst h2
            exact sf o (List.mem_of_getElem? ho) f (List.mem_of_getElem? hf))
      exact ⟨_, by rw [e1, e5]; rfl, e7⟩
  | addField x y =>
    have key : ∀ a r, s.var x = some a → s.var y = some r → ∃ s', exec s (.addField x y) = some s' ∧ StateInv s' ∧
        (StrongFields s.heap → r.weak = false → StrongFields s'.heap) := by
      intro a r hx hy
      obtain ⟨oa, hoa, hnfa, _, _⟩ := inv_target inv.1 (var_refs hx)
      obtain ⟨h, r', e1, e2, e3, e4⟩ := inv_takeRef inv.1 inv.2 (var_refs hy) r.weak
      obtain ⟨o', ho'⟩ : ∃ o', h.objs[a.to]? = some o' := ⟨_, List.getElem?_eq_getElem (by rw [e3.1]; exact lt_of_get hoa)⟩
      obtain ⟨o'', h3, h4, h5⟩ := e3.2 _ _ ho'
      rw [hoa] at h3; injection h3 with h3; subst h3
      refine ⟨⟨h.put a.to { o' with fields := o'.fields ++ [r'] }, s.vars⟩, ?_, ⟨?_, ?_⟩, ?_⟩
      · simp only [exec, hx, hy, Option.bind_some, e1, stored_of ho' (by rw [h5]; exact hnfa), Option.map_some]
      · refine inv_fields e2 ho' (fun h6 => absurd (h5 ▸ h6) hnfa) (fun q => ?_) rfl
        have hc := count_flatMap_set ho' { o' with fields := o'.fields ++ [r'] } q
        unfold refs
        simp only [List.count_append, List.count_cons, List.count_nil, beq_iff_eq] at hc ⊢
        dsimp only [Heap.put]
        omega
      · simp only [Heap.put, List.length_set]; rw [e3.1]; exact inv.2
      · intro sf hw q hq r'' hr''
        have sf' := strongFields_same sf e3
        rcases List.mem_or_eq_of_mem_set hq with h1 | h1
        · exact sf' q h1 r'' hr''
        · subst h1
          rcases List.mem_append.1 hr'' with h2 | h2
          · exact sf' o' (List.mem_of_getElem? ho') r'' h2
          · rw [List.mem_singleton] at h2; subst h2; rw [e4]; exact hw
    constructor
    · intro s' e
      cases hx : s.var x with
      | none => simp [exec, hx] at e
      | some a =>
        cases hy : s.var y with
        | none => simp [exec, hx, hy] at e
        | some r => obtain ⟨s'', e1, e2, _⟩ := key a r hx hy; rw [e] at e1; injection e1 with e1; subst e1; exact e2
    · rintro sf ⟨⟨a, hx⟩, ⟨r, hy⟩⟩ nw
      obtain ⟨s'', e1, _, e3⟩ := key a r hx hy
      exact ⟨s'', e1, e3 sf (nw r hy)⟩

theorem pointers_mem {s : State} (inv : StateInv s) (r : Ref) : r ∈ pointers s ↔ r ∈ refs (rootsOf s.vars) s.heap [] := by
  unfold pointers refs cuts rootsOf
  simp only [List.mem_append, List.mem_flatMap, List.mem_filter, List.filterMap_nil, List.not_mem_nil, or_false, decide_eq_true_eq]
  constructor
  · rintro (h | ⟨o, ⟨h1, h2⟩, h3⟩)
    · exact Or.inl h
    · exact Or.inr ⟨o, h1, h3⟩
  · rintro (h | ⟨o, h1, h3⟩)
    · exact Or.inl h
    · refine Or.inr ⟨o, ⟨h1, fun hp => ?_⟩, h3⟩
      obtain ⟨i, hi⟩ := List.getElem?_of_mem h1
      obtain ⟨p1, p2, p3⟩ := inv.1.phase _ _ hi
      by_cases h0 : 0 < o.strong
      · rw [p1 h0] at hp; cases hp
      · by_cases hw : 0 < o.weakNum
        · rw [p2 (by omega) hw] at hp; cases hp
        · have := p3 (by omega) (by omega)
          rw [if_neg (by simp [dyings])] at this
          rw [this.2] at h3; cases h3

theorem sound_of_inv {s : State} (inv : StateInv s) : Sound s := by
  have howned : ∀ i, Owned s i ↔ 0 < (refs (rootsOf s.vars) s.heap []).count ⟨false, i⟩ := by
    intro i; unfold Owned; rw [pointers_mem inv, List.count_pos_iff]
  have hwatched : ∀ i, Watched s i ↔ 0 < (refs (rootsOf s.vars) s.heap []).count ⟨true, i⟩ := by
    intro i; unfold Watched; rw [pointers_mem inv, List.count_pos_iff]
  have hget : ∀ i, i < s.heap.objs.length → ∃ o, s.heap.objs[i]? = some o := fun i hi => ⟨_, List.getElem?_eq_getElem hi⟩
  have hstored : ∀ (i : Nat) (o : Obj), s.heap.objs[i]? = some o → (o.phase ≠ .freed ↔ 0 < o.strong ∨ 0 < o.weakNum) := by
    intro i o ho
    obtain ⟨p1, p2, p3⟩ := inv.1.phase _ _ ho
    constructor
    · intro hp
      by_contra hc
      have := p3 (by omega) (by omega)
      rw [if_neg (by simp [dyings])] at this
      exact hp this.1
    · intro hor
      by_cases h0 : 0 < o.strong
      · rw [p1 h0]; decide
      · rw [p2 (by omega) (by omega)]; decide
  refine ⟨?_, ?_, ?_, ?_, ?_, ?_⟩
  · intro i h0 hi
    obtain ⟨o, ho⟩ := hget i hi
    have hs := inv.1.strong _ _ ho
    rw [if_neg (by omega), Nat.add_zero] at hs
    rw [alive_strong inv, howned]
    constructor
    · rintro ⟨o', h1, h2⟩
      rw [ho] at h1; injection h1 with h1; subst h1; omega
    · intro h; exact ⟨o, ho, by omega⟩
  · intro i h0 hi
    obtain ⟨o, ho⟩ := hget i hi
    have hs := inv.1.strong _ _ ho
    have hw := inv.1.weak _ _ ho
    rw [if_neg (by omega), Nat.add_zero] at hs
    rw [howned, hwatched, ← hs, ← hw]
    constructor
    · rintro ⟨o', h1, h2⟩
      rw [ho] at h1; injection h1 with h1; subst h1; exact (hstored i o ho).1 h2
    · intro h; exact ⟨o, ho, (hstored i o ho).2 h⟩
  · intro i hi
    obtain ⟨o, ho⟩ := hget i hi
    have hs := inv.1.strong _ _ ho
    rw [inv.1.ended _ _ ho]
    simp only [howned]
    by_cases h0 : i = 0
    · rw [if_pos h0] at hs
      rw [if_pos (by omega), if_pos (Or.inr h0)]
    · rw [if_neg h0, Nat.add_zero] at hs
      simp only [h0, or_false, hs]
  · intro i hi
    obtain ⟨o, ho⟩ := hget i hi
    have hs := inv.1.strong _ _ ho
    have hw := inv.1.weak _ _ ho
    rw [inv.1.destroyed _ _ ho]
    simp only [howned, hwatched]
    by_cases h0 : i = 0
    · rw [if_pos h0] at hs
      rw [if_pos (by omega), if_pos (Or.inr (Or.inr h0))]
    · rw [if_neg h0, Nat.add_zero] at hs
      simp only [h0, or_false, hs, hw]
  · obtain ⟨o, h1, h2, _⟩ := inv_null inv.1 inv.2
    exact ⟨o, h1, h2⟩
  · intro r hr
    rw [pointers_mem inv] at hr
    exact inv.1.valid r hr

theorem run_inv : ∀ (ops : List Op) {s s' : State}, StateInv s → Along NoRevival s ops → run s ops = some s' → StateInv s' := by
  intro ops
  induction ops with
  | nil => intro s s' inv _ e; simp only [run, Option.some.injEq] at e; subst e; exact inv
  | cons op ops ih =>
    intro s s' inv al e
    simp only [run, Option.bind_eq_some_iff] at e
    obtain ⟨s1, e1, e2⟩ := e
    exact ih ((exec_step inv op al.1).1 s1 e1) (al.2 s1 e1) e2

/-- C51: after any history in which no strong pointer is assigned from a weak pointer to an object that is no longer in use:
an object is in use exactly while strong pointers to it exist, its storage is kept exactly while any pointers to it exist, it
is ended exactly once, and its destructor runs exactly once. -/
theorem counted_sound_partial {ops : List Op} {s : State} (hr : Along NoRevival init ops) (h : run init ops = some s) : Sound s :=
  sound_of_inv (run_inv ops init_inv hr h)

/-- C51: if moreover no object has a weak pointer as a member, nothing undefined ever happens. -/
theorem counted_defined_partial {ops : List Op} (hv : Along Valid init ops) (hr : Along NoRevival init ops)
    (hw : Along NoWeakMember init ops) : ∃ s, run init ops = some s := by
  have key : ∀ (ops : List Op) {s : State}, StateInv s → StrongFields s.heap → Along Valid s ops → Along NoRevival s ops →
      Along NoWeakMember s ops → ∃ s', run s ops = some s' := by
    intro ops
    induction ops with
    | nil => intro s _ _ _ _ _; exact ⟨s, rfl⟩
    | cons op ops ih =>
      intro s inv sf a b c
      obtain ⟨s1, e1, sf1⟩ := (exec_step inv op b.1).2 sf a.1 c.1
      obtain ⟨s', e2⟩ := ih ((exec_step inv op b.1).1 s1 e1) sf1 (a.2 s1 e1) (b.2 s1 e1) (c.2 s1 e1)
      exact ⟨s', by simp only [run, e1, Option.bind_some, e2]⟩
  exact key ops init_inv (by intro o ho r hr; simp [init] at ho; subst ho; cases hr) hv hr hw

/-- C51: when all variables are gone, the null object has no members and the members left form no cycle, every object has been destroyed. -/
theorem counted_no_leak {s : State} (h : Sound s) (hv : ∀ x, s.var x = none)
    (hnull : ∀ o, s.heap.objs[0]? = some o → o.fields = []) {rank : Nat → Nat}
    (hrank : ∀ (j : Nat) (o : Obj), s.heap.objs[j]? = some o → o.phase ≠ .freed → ∀ r ∈ o.fields, rank r.to < rank j) :
    ∀ i, 0 < i → i < s.heap.objs.length → ¬ Stored s i ∧ s.heap.destroyed.count i = 1 := by
  have hnovar : s.vars.filterMap id = [] := by
    rw [List.filterMap_eq_nil_iff]
    intro a ha
    obtain ⟨x, hx⟩ := List.getElem?_of_mem ha
    have := hv x
    unfold State.var at this
    rw [hx] at this
    exact this
  have hmem : ∀ r, r ∈ pointers s → ∃ (j : Nat) (o : Obj), s.heap.objs[j]? = some o ∧ o.phase ≠ .freed ∧ r ∈ o.fields := by
    intro r hr
    unfold pointers at hr
    rw [hnovar, List.nil_append, List.mem_flatMap] at hr
    obtain ⟨o, h1, h2⟩ := hr
    rw [List.mem_filter] at h1
    obtain ⟨j, hj⟩ := List.getElem?_of_mem h1.1
    exact ⟨j, o, hj, by simpa using h1.2, h2⟩
  have hbound : ∃ K, ∀ j, j < s.heap.objs.length → rank j ≤ K := by
    generalize s.heap.objs.length = n
    induction n with
    | zero => exact ⟨0, by omega⟩
    | succ n ih =>
      obtain ⟨K, hK⟩ := ih
      refine ⟨max K (rank n), fun j hj => ?_⟩
      by_cases h1 : j = n
      · subst h1; omega
      · have := hK j (by omega); omega
  obtain ⟨K, hK⟩ := hbound
  have key : ∀ d i, 0 < i → K - rank i ≤ d → ¬ Stored s i := by
    intro d
    induction d with
    | zero =>
      intro i hi hd hst
      have hlt : i < s.heap.objs.length := by obtain ⟨o, h1, _⟩ := hst; exact lt_of_get h1
      have := hK i hlt
      rcases (h.stored i hi hlt).1 hst with ho | ho
      · obtain ⟨j, o, h1, h2, h3⟩ := hmem _ ho
        have := hrank j o h1 h2 _ h3
        have := hK j (lt_of_get h1)
        dsimp only at *; omega
      · obtain ⟨j, o, h1, h2, h3⟩ := hmem _ ho
        have := hrank j o h1 h2 _ h3
        have := hK j (lt_of_get h1)
        dsimp only at *; omega
    | succ d ih =>
      intro i hi hd hst
      have hlt : i < s.heap.objs.length := by obtain ⟨o, h1, _⟩ := hst; exact lt_of_get h1
      have step : ∀ b : Bool, (⟨b, i⟩ : Ref) ∈ pointers s → False := by
        intro b ho
        obtain ⟨j, o, h1, h2, h3⟩ := hmem _ ho
        have h4 := hrank j o h1 h2 _ h3
        have h5 := hK j (lt_of_get h1)
        dsimp only at h4
        by_cases h0 : j = 0
        · subst h0; rw [hnull o h1] at h3; cases h3
        · exact ih j (by omega) (by omega) ⟨o, h1, h2⟩
      rcases (h.stored i hi hlt).1 hst with ho | ho
      · exact step false ho
      · exact step true ho
  intro i hi hlt
  have hns := key K i hi (by omega)
  refine ⟨hns, ?_⟩
  rw [h.destroyed i hlt, if_neg]
  rintro (h1 | h1 | h1)
  · exact hns ((h.stored i hi hlt).2 (Or.inl h1))
  · exact hns ((h.stored i hi hlt).2 (Or.inr h1))
  · omega

/-- C51: what a copy points to: what the original points to, except that a strong pointer made from a weak pointer to an object
no longer in use is null. -/
theorem copy_target {ops : List Op} {s s' : State} (hr : Along NoRevival init ops) (h : run init ops = some s) {weak : Bool} {x : Nat}
    {r : Ref} (hx : s.var x = some r) (e : exec s (.copy weak x) = some s') :
    ∃ r', s'.vars = s.vars ++ [some r'] ∧ r'.weak = weak ∧ (weak = true ∨ Alive s r.to → r'.to = r.to) ∧
      (weak = false → ¬ Alive s r.to → r'.to = 0) := by
  have inv := run_inv ops init_inv hr h
  obtain ⟨o, ho, hnf, _, _⟩ := inv_target inv.1 (var_refs hx)
  have hal : Alive s r.to ↔ 0 < o.strong := by
    rw [alive_strong inv]
    constructor
    · rintro ⟨o', h1, h2⟩; rw [ho] at h1; injection h1 with h1; subst h1; exact h2
    · intro h; exact ⟨o, ho, h⟩
  simp only [exec, hx, Option.bind_some, takeRef, copyRef, stored_of ho hnf, Option.map_some, Option.map_eq_some_iff] at e
  obtain ⟨p, ⟨h', _, rfl⟩, rfl⟩ := e
  refine ⟨_, rfl, ?_, ?_, ?_⟩
  · dsimp only; split
    · rename_i h1; exact h1.1.symm
    · rfl
  · rintro (h1 | h1)
    · dsimp only; rw [if_neg (by rw [h1]; simp)]
    · rw [hal] at h1; dsimp only; rw [if_neg (by omega)]
  · intro h1 h2
    rw [hal] at h2; dsimp only; rw [if_pos ⟨h1, by omega⟩]

/-- C51: after an assignment the variable points where the other one points, and all other variables are unchanged. -/
theorem assign_target {s s' : State} {x y : Nat} {a b : Ref} (hx : s.var x = some a) (hy : s.var y = some b)
    (e : exec s (.assign x y) = some s') : s'.var x = some ⟨a.weak, b.to⟩ ∧ ∀ z, z ≠ x → s'.var z = s.var z := by
  simp only [exec, hx, hy, Option.bind_some, Option.bind_eq_some_iff, Option.map_eq_some_iff] at e
  obtain ⟨h, _, h', _, rfl⟩ := e
  have hlt : x < s.vars.length := (List.getElem?_eq_some_iff.1 (var_get hx)).1
  constructor
  · unfold State.var
    simp only [List.getElem?_set_self hlt, Option.bind_some, id]
  · intro z hz
    unfold State.var
    simp only [List.getElem?_set_ne (Ne.symm hz)]

/-- A valid history whose run is undefined, although no weak pointer is ever assigned to a strong one: an object gets a weak
pointer to itself as a member (as a node does that is its own key), and the last strong pointer goes. -/
def weakSelf : List Op := [.make [], .copy true 0, .addField 0 1, .drop 1, .drop 0]

/-- The same with two objects: a child with a weak pointer back to its parent. -/
def weakBack : List Op := [.make [], .copy true 0, .make [1], .drop 1, .addField 0 2, .drop 2, .drop 0]

/-- A strong pointer assigned from a weak pointer to an object no longer in use, and then ended. -/
def revival : List Op := [.make [], .copy true 0, .make [], .drop 0, .assign 2 1, .drop 2]

/-- C51 fails as it stands: a valid history can be undefined. -/
theorem counted_defined_refuted :
    (Along Valid init weakSelf ∧ Along NoRevival init weakSelf ∧ run init weakSelf = none) ∧
    (Along Valid init weakBack ∧ Along NoRevival init weakBack ∧ run init weakBack = none) := by
  simp [weakSelf, weakBack, run, exec, init, State.var, takeAll, takeRef, copyRef, addRef, Heap.stored, Heap.put, work_cons, work_nil,
    step, cutRef, destroyAndFree, waitingForDestroy, Along, Valid, NoRevival]

/-- C51 fails as it stands: an object can be ended twice. -/
theorem counted_sound_refuted : Along Valid init revival ∧ ∃ s, run init revival = some s ∧ s.heap.ended.count 1 = 2 ∧ ¬ Sound s := by
  refine ⟨?_, ?_⟩
  · simp [revival, run, exec, init, State.var, takeAll, takeRef, copyRef, addRef, Heap.stored, Heap.put, work_cons, work_nil,
    step, cutRef, destroyAndFree, waitingForDestroy, Along, Valid]
  · have h : ∃ s, run init revival = some s ∧ s.heap.ended.count 1 = 2 ∧ 1 < s.heap.objs.length := by
      simp [revival, run, exec, init, State.var, takeAll, takeRef, copyRef, addRef, Heap.stored, Heap.put, work_cons, work_nil,
    step, cutRef, destroyAndFree, waitingForDestroy]
    obtain ⟨s, h1, h2, h3⟩ := h
    refine ⟨s, h1, h2, fun hs => ?_⟩
    have := hs.ended 1 h3
    rw [h2] at this
    split at this <;> omega

/-- A history for the theorems above: a chain of two objects, a weak pointer to the first, the
chain dropped. -/
def chain : List Op := [.make [], .make [0], .copy true 0, .reset 0, .assign 0 1, .drop 0, .drop 1]

example : Along Valid init chain ∧ Along NoRevival init chain ∧ Along NoWeakMember init chain := by
  simp [chain, run, exec, init, State.var, takeAll, takeRef, copyRef, addRef, Heap.stored, Heap.put, work_cons, work_nil,
    step, cutRef, destroyAndFree, waitingForDestroy, Along, Valid, NoRevival, NoWeakMember, Alive]

example : ∃ s, run init chain = some s ∧ s.heap.destroyed = [2] ∧ s.heap.ended = [1, 2] ∧ Sound s := by
  have hr : Along NoRevival init chain := by
    simp [chain, run, exec, init, State.var, takeAll, takeRef, copyRef, addRef, Heap.stored, Heap.put, work_cons, work_nil,
    step, cutRef, destroyAndFree, waitingForDestroy, Along, NoRevival, Alive]
  have h : ∃ s, run init chain = some s ∧ s.heap.destroyed = [2] ∧ s.heap.ended = [1, 2] := by
    simp [chain, run, exec, init, State.var, takeAll, takeRef, copyRef, addRef, Heap.stored, Heap.put, work_cons, work_nil,
    step, cutRef, destroyAndFree, waitingForDestroy]
  obtain ⟨s, h1, h2, h3⟩ := h
  exact ⟨s, h1, h2, h3, counted_sound_partial hr h1⟩

/-- A member replaced by a pointer to another object. -/
def replaced : List Op := [.make [], .make [0], .drop 0, .make [], .setField 1 0 2]

example : Along NoRevival init replaced := by
  refine ⟨trivial, fun s e => ⟨trivial, fun s1 e1 => ⟨trivial, fun s2 e2 => ⟨trivial, fun s3 e3 => ⟨?_, fun _ _ => trivial⟩⟩⟩⟩⟩
  have h : run init [.make [], .make [0], .drop 0, .make []] = some s3 := by
    simp only [run, e, e1, e2, e3, Option.bind_some]
  simp [run, exec, init, State.var, takeAll, takeRef, copyRef, addRef, Heap.stored, Heap.put, work_cons, work_nil,
    step, cutRef] at h
  subst h
  rintro a o f b h1 h2 h3 h4 h5
  simp [State.var] at h1 h4
  subst h1; subst h4
  exact ⟨_, rfl, rfl⟩

end ELC.Ptr
