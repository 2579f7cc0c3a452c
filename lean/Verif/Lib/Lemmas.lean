import Verif.Lib.Spec
import Mathlib.Data.List.Perm.Basic
/-! Lemmas for Props: every object is counted as often as variables refer to it, and a library is open as often as there are
live objects for it. -/
namespace ELC.Lib
open Spec (Val)

def refsTo (i : Nat) (o : Obj) : Bool := o.info == some i

def live (l : Nat) (x : Info) : Bool := x.lib == some l && x.refs != 0

def view (m : Mem) : Obj → Val
  | .handle i => .handle (libOf m i)
  | .func i a => .func (libOf m i) a

structure Inv (os : Os) (m : Mem) (s : Spec.State) : Prop where
  counts : ∀ i (h : i < m.infos.length), (m.infos[i]).refs = m.vars.countP (refsTo i)
  bound : ∀ o ∈ m.vars, ∀ i, o.info = some i → i < m.infos.length
  open_ : ∀ l, m.opened l = m.infos.countP (live l)
  vars : s.vars = m.vars.map (view m)
  called : s.called = m.called
  found : os.linux = true → ∀ x ∈ m.infos, x.lib ≠ none

theorem inv_init (os : Os) : Inv os Mem.init ⟨[], []⟩ :=
  ⟨fun i h => absurd h (Nat.not_lt_zero i), fun o h => absurd h List.not_mem_nil, fun _ => rfl, rfl, rfl,
    fun _ x h => absurd h List.not_mem_nil⟩

theorem view_lib (m : Mem) (o : Obj) : (view m o).lib = libOf m o.info := by cases o <;> rfl

theorem libOf_some {m : Mem} {i : Nat} (h : i < m.infos.length) : libOf m (some i) = (m.infos[i]).lib := by
  simp [libOf, h]

/-- Libraries of objects stay what they are. -/
theorem libOf_set {m : Mem} {i r : Nat} {f : Nat → Nat} {vs : List Obj} {c : List Nat} (h : i < m.infos.length) (j : Option Nat) :
    libOf ⟨m.infos.set i ⟨(m.infos[i]).lib, r⟩, f, vs, c⟩ j = libOf m j := by
  cases j with
  | none => rfl
  | some j =>
    simp only [libOf, Option.bind_some, List.getElem?_set]
    by_cases hij : i = j
    · subst hij; simp [h]
    · simp [hij]

theorem view_set {m : Mem} {i r : Nat} {f : Nat → Nat} {vs : List Obj} {c : List Nat} (h : i < m.infos.length) (o : Obj) :
    view ⟨m.infos.set i ⟨(m.infos[i]).lib, r⟩, f, vs, c⟩ o = view m o := by
  cases o <;> simp only [view, libOf_set h]

theorem get_var {m : Mem} {s : Spec.State} {os : Os} (hi : Inv os m s) (k : Nat) :
    s.vars[k]? = (m.vars[k]?).map (view m) := by rw [hi.vars, List.getElem?_map]

theorem live_set {l : Nat} {xs : List Info} {i r : Nat} (h : i < xs.length) (hr : r ≠ 0) (hx : (xs[i]).refs ≠ 0) :
    (xs.set i ⟨(xs[i]).lib, r⟩).countP (live l) = xs.countP (live l) := by
  rw [List.countP_set h]
  have e : live l ⟨(xs[i]).lib, r⟩ = live l xs[i] := by
    have h1 : (r != 0) = true := by simpa using hr
    have h2 : ((xs[i]).refs != 0) = true := by simpa using hx
    simp only [live, h1, h2]
  rw [e]
  have := List.countP_pos_iff (p := live l) (l := xs)
  by_cases hl : live l xs[i] = true
  · have hp : 0 < xs.countP (live l) := this.mpr ⟨xs[i], List.getElem_mem h, hl⟩
    rw [if_pos hl]; omega
  · rw [if_neg hl]; omega

/-- A new variable that refers to an object some variable refers to already. -/
theorem acquire_inv {os : Os} {m : Mem} {s : Spec.State} (hi : Inv os m s) {o o' : Obj} (ho : o ∈ m.vars)
    (he : o'.info = o.info) : ∃ m', acquire m o'.info = some m' ∧
      Inv os { m' with vars := m'.vars ++ [o'] } ⟨s.vars ++ [view m o'], s.called⟩ ∧ m'.vars = m.vars := by
  cases hinf : o.info with
  | none =>
    rw [he, hinf]
    refine ⟨m, rfl, ⟨?_, ?_, hi.open_, ?_, hi.called, hi.found⟩, rfl⟩
    · intro i h
      have e : refsTo i o' = false := by simp [refsTo, he, hinf]
      rw [List.countP_append, List.countP_singleton, e]
      simpa using hi.counts i h
    · intro x hx i hxi
      rcases List.mem_append.mp hx with hx | hx
      · exact hi.bound x hx i hxi
      · rw [List.mem_singleton] at hx
        subst hx
        rw [he, hinf] at hxi
        simp at hxi
    · simp only [List.map_append, List.map_cons, List.map_nil]
      rw [hi.vars]
      have : ∀ o : Obj, view { m with vars := m.vars ++ [o'] } o = view m o := fun o => by cases o <;> rfl
      simp [this]
  | some i =>
    have hlt := hi.bound o ho i hinf
    have hget : m.infos[i]? = some m.infos[i] := List.getElem?_eq_getElem hlt
    rw [he, hinf]
    refine ⟨{ m with infos := m.infos.set i ⟨(m.infos[i]).lib, (m.infos[i]).refs + 1⟩ }, by simp only [acquire, hget], ?_, rfl⟩
    have hpos : (m.infos[i]).refs ≠ 0 := by
      rw [hi.counts i hlt]
      have := List.countP_pos_iff (p := refsTo i) (l := m.vars)
      have := this.mpr ⟨o, ho, by simp [refsTo, hinf]⟩
      omega
    refine ⟨?_, ?_, ?_, ?_, hi.called, ?_⟩
    · intro j hj
      simp only [List.length_set] at hj
      simp only [List.getElem_set]
      rw [List.countP_append, List.countP_singleton]
      by_cases hij : i = j
      · subst hij
        have e : refsTo i o' = true := by simp [refsTo, he, hinf]
        rw [if_pos rfl, e, if_pos rfl, hi.counts i hlt]
      · have e : refsTo j o' = false := by simp [refsTo, he, hinf, hij]
        rw [if_neg hij, e, hi.counts j hj]
        simp
    · intro x hx j hxj
      simp only [List.length_set]
      rcases List.mem_append.mp hx with hx | hx
      · exact hi.bound x hx j hxj
      · rw [List.mem_singleton] at hx
        subst hx
        rw [he, hinf] at hxj
        injection hxj with hxj
        omega
    · intro l
      dsimp only
      rw [live_set hlt (by omega) hpos]
      exact hi.open_ l
    · simp only [List.map_append, List.map_cons, List.map_nil]
      rw [hi.vars]
      congr 1
      · apply List.map_congr_left
        intro x _
        exact (view_set hlt x).symm
      · rw [view_set hlt]
    · intro hl x hx
      rcases List.mem_or_eq_of_mem_set hx with hx | hx
      · exact hi.found hl x hx
      · rw [hx]; exact hi.found hl (m.infos[i]) (List.getElem_mem hlt)

/-- A variable that is gone. -/
theorem release_inv {os : Os} {m : Mem} {s : Spec.State} (hi : Inv os m s) {k : Nat} (hk : k < m.vars.length) :
    ∃ m', release os m (m.vars[k]).info = some m' ∧
      Inv os { m' with vars := m'.vars.eraseIdx k } ⟨s.vars.eraseIdx k, s.called⟩ := by
  have hperm := List.getElem_cons_eraseIdx_perm hk
  have hcount : ∀ i, m.vars.countP (refsTo i) = (m.vars.eraseIdx k).countP (refsTo i) + if refsTo i m.vars[k] then 1 else 0 := by
    intro i
    rw [← hperm.countP_eq, List.countP_cons]
  have hmem : ∀ x ∈ m.vars.eraseIdx k, x ∈ m.vars := fun x hx => List.mem_of_mem_eraseIdx hx
  cases hinf : (m.vars[k]).info with
  | none =>
    refine ⟨m, rfl, ⟨?_, ?_, hi.open_, ?_, hi.called, hi.found⟩⟩
    · intro i h
      have e : refsTo i m.vars[k] = false := by simp [refsTo, hinf]
      have := hcount i
      rw [e] at this
      rw [hi.counts i h, this]
      simp
    · exact fun x hx => hi.bound x (hmem x hx)
    · dsimp only
      rw [hi.vars, List.eraseIdx_map]
      have : ∀ o : Obj, view { m with vars := m.vars.eraseIdx k } o = view m o := fun o => by cases o <;> rfl
      simp [this]
  | some i =>
    have hlt := hi.bound _ (List.getElem_mem hk) i hinf
    have hget : m.infos[i]? = some m.infos[i] := List.getElem?_eq_getElem hlt
    have htrue : refsTo i m.vars[k] = true := by simp [refsTo, hinf]
    have hci := hcount i
    rw [htrue, if_pos rfl] at hci
    have hpos : (m.infos[i]).refs ≠ 0 := by rw [hi.counts i hlt]; omega
    -- what holds of the memory with the counter changed, whatever is open
    have key : ∀ f : Nat → Nat, (∀ l, f l = (m.infos.set i ⟨(m.infos[i]).lib, (m.infos[i]).refs - 1⟩).countP (live l)) →
        Inv os ⟨m.infos.set i ⟨(m.infos[i]).lib, (m.infos[i]).refs - 1⟩, f, m.vars.eraseIdx k, m.called⟩
          ⟨s.vars.eraseIdx k, s.called⟩ := by
      intro f hf
      refine ⟨?_, ?_, hf, ?_, hi.called, ?_⟩
      · intro j hj
        simp only [List.length_set] at hj
        simp only [List.getElem_set]
        by_cases hij : i = j
        · subst hij
          rw [if_pos rfl]
          dsimp only
          rw [hi.counts i hlt]
          omega
        · have e : refsTo j m.vars[k] = false := by simp [refsTo, hinf, hij]
          have := hcount j
          rw [e] at this
          rw [if_neg hij, hi.counts j hj, this]
          simp
      · intro x hx j hxj
        simp only [List.length_set]
        exact hi.bound x (hmem x hx) j hxj
      · dsimp only
        rw [hi.vars, List.eraseIdx_map]
        apply List.map_congr_left
        intro x _
        exact (view_set hlt x).symm
      · intro hl x hx
        rcases List.mem_or_eq_of_mem_set hx with hx | hx
        · exact hi.found hl x hx
        · rw [hx]; exact hi.found hl (m.infos[i]) (List.getElem_mem hlt)
    by_cases hone : (m.infos[i]).refs = 1
    · cases hlib : (m.infos[i]).lib with
      | none =>
        have hos : os.linux = false := by
          cases ho : os.linux with
          | false => rfl
          | true => exact absurd hlib (hi.found ho _ (List.getElem_mem hlt))
        refine ⟨_, by simp only [release, hget, hone, hlib, close, hos]; rfl, ?_⟩
        have := key m.opened (fun l => by
          rw [hi.open_ l, List.countP_set hlt]
          have e1 : live l m.infos[i] = false := by simp [live, hlib]
          have e2 : live l ⟨(m.infos[i]).lib, (m.infos[i]).refs - 1⟩ = false := by simp [live, hlib]
          rw [e1, e2]; simp)
        rw [hlib, hone] at this
        exact this
      | some l =>
        have hlive : live l m.infos[i] = true := by simp [live, hlib, hone]
        have ho : m.opened l ≠ 0 := by
          rw [hi.open_ l]
          have := List.countP_pos_iff (p := live l) (l := m.infos)
          have := this.mpr ⟨_, List.getElem_mem hlt, hlive⟩
          omega
        refine ⟨{ m with infos := m.infos.set i ⟨some l, 1 - 1⟩, opened := set m.opened l (m.opened l - 1) },
          by simp only [release, hget, hone, hlib, close]; simp [ho], ?_⟩
        have := key (set m.opened l (m.opened l - 1)) (fun l' => by
          rw [List.countP_set hlt]
          have e2 : live l' ⟨(m.infos[i]).lib, (m.infos[i]).refs - 1⟩ = false := by simp [live, hone]
          rw [e2]
          unfold set
          by_cases hll : l' = l
          · subst hll
            rw [if_pos rfl, hlive, hi.open_ l']
            simp
          · have e1 : live l' m.infos[i] = false := by simp [live, hlib, Ne.symm hll]
            rw [if_neg hll, e1, hi.open_ l']
            simp)
        rw [hlib, hone] at this
        exact this
    · refine ⟨{ m with infos := m.infos.set i ⟨(m.infos[i]).lib, (m.infos[i]).refs - 1⟩ },
        by simp only [release, hget]; rw [if_neg hpos, if_neg hone], ?_⟩
      exact key m.opened fun l => by rw [live_set hlt (by omega) hpos]; exact hi.open_ l

theorem load_inv {os : Os} {m : Mem} {s : Spec.State} (hi : Inv os m s) (name : Nat)
    (hf : os.linux = true → os.find name ≠ none) :
    Inv os (load os m name) ⟨s.vars ++ [.handle (os.find name)], s.called⟩ := by
  have hview : ∀ o ∈ m.vars, view (load os m name) o = view m o := by
    intro o ho
    have hl : ∀ i, o.info = some i → libOf (load os m name) (some i) = libOf m (some i) := by
      intro i hoi
      have := hi.bound o ho i hoi
      simp only [libOf, Option.bind_some, load]
      rw [List.getElem?_append_left this]
    cases o with
    | handle i =>
      cases i with
      | none => rfl
      | some i => simp only [view]; rw [hl i rfl]
    | func i a =>
      cases i with
      | none => rfl
      | some i => simp only [view]; rw [hl i rfl]
  refine ⟨?_, ?_, ?_, ?_, hi.called, ?_⟩
  · intro i h
    simp only [load, List.length_append, List.length_singleton] at h
    simp only [load]
    rw [List.countP_append, List.countP_singleton]
    by_cases hlt : i < m.infos.length
    · have e : refsTo i (.handle (some m.infos.length)) = false := by
        simp only [refsTo, Obj.info, beq_eq_false_iff_ne, ne_eq, Option.some.injEq]; omega
      rw [List.getElem_append_left hlt, e, hi.counts i hlt]
      simp
    · have hi' : i = m.infos.length := by omega
      subst hi'
      have e : refsTo m.infos.length (.handle (some m.infos.length)) = true := by simp [refsTo, Obj.info]
      have hz : m.vars.countP (refsTo m.infos.length) = 0 := by
        rw [List.countP_eq_zero]
        intro o ho hr
        simp only [refsTo, beq_iff_eq] at hr
        exact absurd (hi.bound o ho _ hr) (Nat.lt_irrefl _)
      rw [e, hz]
      simp
  · intro o ho i hoi
    simp only [load, List.length_append, List.length_singleton]
    rcases List.mem_append.mp ho with ho | ho
    · have := hi.bound o ho i hoi; omega
    · rw [List.mem_singleton] at ho
      subst ho
      simp only [Obj.info, Option.some.injEq] at hoi
      omega
  · intro l
    simp only [load]
    rw [List.countP_append, List.countP_singleton, ← hi.open_ l]
    cases hfn : os.find name with
    | none => simp [live]
    | some l' =>
      unfold set
      by_cases hll : l = l'
      · subst hll; simp [live]
      · simp [live, hll, Ne.symm hll]
  · simp only
    rw [hi.vars]
    have : (load os m name).vars = m.vars ++ [.handle (some m.infos.length)] := rfl
    rw [this, List.map_append, List.map_cons, List.map_nil]
    congr 1
    · apply List.map_congr_left
      intro x hx
      exact (hview x hx).symm
    · simp [view, libOf, load]
  · intro hl x hx
    simp only [load] at hx
    rcases List.mem_append.mp hx with hx | hx
    · exact hi.found hl x hx
    · rw [List.mem_singleton] at hx
      subst hx
      exact hf hl

/-- Open libraries are those somebody holds. -/
theorem opened_iff {os : Os} {m : Mem} {s : Spec.State} (hi : Inv os m s) (l : Nat) : 0 < m.opened l ↔ Spec.held s l := by
  rw [hi.open_ l, List.countP_pos_iff]
  constructor
  · rintro ⟨x, hx, hl⟩
    obtain ⟨i, hlt, rfl⟩ := List.getElem_of_mem hx
    simp only [live, Bool.and_eq_true, beq_iff_eq, bne_iff_ne, ne_eq] at hl
    have hc := hi.counts i hlt
    have : 0 < m.vars.countP (refsTo i) := by omega
    obtain ⟨o, ho, hr⟩ := List.countP_pos_iff.mp this
    simp only [refsTo, beq_iff_eq] at hr
    refine ⟨view m o, by rw [hi.vars]; exact List.mem_map_of_mem ho, ?_⟩
    rw [view_lib, hr, libOf_some hlt, hl.1]
  · rintro ⟨v, hv, hl⟩
    rw [hi.vars] at hv
    obtain ⟨o, ho, rfl⟩ := List.mem_map.mp hv
    rw [view_lib] at hl
    cases hinf : o.info with
    | none => rw [hinf] at hl; simp [libOf] at hl
    | some i =>
      have hlt := hi.bound o ho i hinf
      rw [hinf, libOf_some hlt] at hl
      refine ⟨m.infos[i], List.getElem_mem hlt, ?_⟩
      have hp : 0 < m.vars.countP (refsTo i) := List.countP_pos_iff.mpr ⟨o, ho, by simp [refsTo, hinf]⟩
      have hc := hi.counts i hlt
      simp only [live, hl, beq_self_eq_true, Bool.true_and, bne_iff_ne, ne_eq]
      omega

theorem step_inv {os : Os} {m : Mem} {s s' : Spec.State} {o : Op} (hi : Inv os m s) (h : Spec.step os s o = some s')
    (hf : os.linux = true → ∀ n, o = .load n → os.find n ≠ none) : ∃ m', step os m o = some m' ∧ Inv os m' s' := by
  cases o with
  | load name =>
    simp only [Spec.step, Option.some.injEq] at h
    subst h
    exact ⟨_, rfl, load_inv hi name fun hl => hf hl name rfl⟩
  | native a =>
    simp only [Spec.step, Option.some.injEq] at h
    subst h
    refine ⟨_, rfl, ⟨?_, ?_, hi.open_, ?_, hi.called, hi.found⟩⟩
    · intro i hlt
      rw [List.countP_append, List.countP_singleton]
      simpa [refsTo, Obj.info] using hi.counts i hlt
    · intro x hx i hxi
      rcases List.mem_append.mp hx with hx | hx
      · exact hi.bound x hx i hxi
      · rw [List.mem_singleton] at hx
        subst hx
        simp [Obj.info] at hxi
    · have : ∀ o : Obj, view { m with vars := m.vars ++ [.func none a] } o = view m o := fun o => by cases o <;> rfl
      simp only [List.map_append, List.map_cons, List.map_nil, this]
      rw [hi.vars]
      have e : view { m with vars := m.vars ++ [.func none a] } = view m := funext this
      rw [e]
      rfl
  | copy k =>
    simp only [Spec.step] at h
    rw [get_var hi, Option.map_map, Option.map_eq_some_iff] at h
    obtain ⟨o, ho, h⟩ := h
    subst h
    obtain ⟨m', e, hi', hv⟩ := acquire_inv hi (o := o) (o' := o) (List.mem_of_getElem? ho) rfl
    exact ⟨{ m' with vars := m'.vars ++ [o] }, by simp only [step, ho, Option.bind_some, e]; rfl, hi'⟩
  | drop k =>
    simp only [Spec.step] at h
    rw [get_var hi, Option.map_map, Option.map_eq_some_iff] at h
    obtain ⟨o, ho, h⟩ := h
    subst h
    obtain ⟨hk, rfl⟩ := List.getElem?_eq_some_iff.mp ho
    obtain ⟨m', e, hi'⟩ := release_inv hi hk
    exact ⟨_, by simp only [step, ho, Option.bind_some, e]; rfl, hi'⟩
  | sym k y =>
    simp only [Spec.step] at h
    rw [get_var hi] at h
    cases ho : m.vars[k]? with
    | none => rw [ho] at h; simp at h
    | some o =>
      rw [ho] at h
      cases o with
      | func i a => simp [view] at h
      | handle i =>
        simp only [Option.map_some, view] at h
        cases hl : libOf m i with
        | none => rw [hl] at h; simp at h
        | some l =>
          rw [hl] at h
          simp only [Option.map_eq_some_iff] at h
          obtain ⟨a, ha, h⟩ := h
          subst h
          obtain ⟨m', e, hi', hv⟩ := acquire_inv hi (o := .handle i) (o' := .func i a) (List.mem_of_getElem? ho) rfl
          simp only [Obj.info] at e
          refine ⟨{ m' with vars := m'.vars ++ [.func i a] }, ?_, ?_⟩
          · simp only [step, ho]
            have : address os m i y = some a := by unfold address; rw [hl]; exact ha
            rw [this, Option.bind_some, e]; rfl
          · simp only [view, hl] at hi'
            exact hi'
  | handleOf k =>
    simp only [Spec.step] at h
    rw [get_var hi] at h
    cases ho : m.vars[k]? with
    | none => rw [ho] at h; simp at h
    | some o =>
      rw [ho] at h
      cases o with
      | handle i => simp [view] at h
      | func i a =>
        simp only [Option.map_some, view, Option.some.injEq] at h
        subst h
        obtain ⟨m', e, hi', hv⟩ := acquire_inv hi (o := .func i a) (o' := .handle i) (List.mem_of_getElem? ho) rfl
        simp only [Obj.info] at e
        exact ⟨{ m' with vars := m'.vars ++ [.handle i] }, by simp only [step, ho, e]; rfl, hi'⟩
  | call k =>
    simp only [Spec.step] at h
    rw [get_var hi] at h
    cases ho : m.vars[k]? with
    | none => rw [ho] at h; simp at h
    | some o =>
      rw [ho] at h
      cases o with
      | handle i => simp [view] at h
      | func i a =>
        simp only [Option.map_some, view, Option.some.injEq] at h
        subst h
        have hinv : Inv os { m with called := a :: m.called } ⟨s.vars, a :: s.called⟩ := by
          refine ⟨hi.counts, hi.bound, hi.open_, ?_, by rw [hi.called], hi.found⟩
          rw [hi.vars]
          apply List.map_congr_left
          intro x _
          cases x <;> rfl
        refine ⟨{ m with called := a :: m.called }, ?_, hinv⟩
        simp only [step, ho]
        cases hl : libOf m i with
        | none => rfl
        | some l =>
          have : 0 < m.opened l := (opened_iff hi l).mpr
            ⟨view m (.func i a), by rw [hi.vars]; exact List.mem_map_of_mem (List.mem_of_getElem? ho), by rw [view_lib]; exact hl⟩
          dsimp only
          rw [if_neg (by omega)]

theorem run_inv {os : Os} (ops : List Op) : ∀ {m : Mem} {s s' : Spec.State}, Inv os m s → Spec.run os s ops = some s' →
    (os.linux = true → ∀ n, .load n ∈ ops → os.find n ≠ none) → ∃ m', run os m ops = some m' ∧ Inv os m' s' := by
  induction ops with
  | nil => intro m s s' hi h _; simp only [Spec.run, Option.some.injEq] at h; subst h; exact ⟨m, rfl, hi⟩
  | cons o ops ih =>
    intro m s s' hi h hf
    simp only [Spec.run] at h
    cases hs : Spec.step os s o with
    | none => rw [hs] at h; simp at h
    | some s1 =>
      rw [hs, Option.bind_some] at h
      obtain ⟨m1, e1, hi1⟩ := step_inv hi hs fun hl n hn => hf hl n (by rw [hn]; exact List.mem_cons_self)
      obtain ⟨m2, e2, hi2⟩ := ih hi1 h fun hl n hn => hf hl n (List.mem_cons_of_mem _ hn)
      exact ⟨m2, by simp only [run, e1, Option.bind_some, e2], hi2⟩

/-! ### Linux beside Windows -/

/-- The same libraries on Windows. -/
def windows (os : Os) : Os := { os with linux := false }

theorem spec_run_windows (os : Os) (ops : List Op) : ∀ s, Spec.run (windows os) s ops = Spec.run os s ops := by
  induction ops with
  | nil => intro s; rfl
  | cons o ops ih =>
    intro s
    have : Spec.step (windows os) s o = Spec.step os s o := by cases o <;> rfl
    simp only [Spec.run, this]
    cases Spec.step os s o with
    | none => rfl
    | some s' => exact ih s'

/-- Which variable comes from which load. -/
structure From (os : Os) (m : Mem) (g : Spec.Origins) : Prop where
  vars : g.vars = m.vars.map Obj.info
  names : g.names.map os.find = m.infos.map Info.lib

theorem acquire_from {os : Os} {m m' : Mem} {g : Spec.Origins} (hg : From os m g) {i : Option Nat} (h : acquire m i = some m') :
    m'.vars = m.vars ∧ m'.infos.map Info.lib = m.infos.map Info.lib := by
  unfold acquire at h
  split at h
  · injection h with h; subst h; exact ⟨rfl, rfl⟩
  · split at h
    · simp at h
    · next x hx =>
      injection h with h
      subst h
      refine ⟨rfl, ?_⟩
      obtain ⟨hlt, rfl⟩ := List.getElem?_eq_some_iff.mp hx
      dsimp only
      rw [List.map_set]
      apply List.ext_getElem (by simp)
      intro n h1 h2
      rw [List.getElem_set]
      split
      · next e => subst e; simp
      · rfl

theorem release_from {os : Os} {m m' : Mem} {i : Option Nat} (h : release os m i = some m') :
    m'.vars = m.vars ∧ m'.infos.map Info.lib = m.infos.map Info.lib := by
  unfold release at h
  split at h
  · injection h with h; subst h; exact ⟨rfl, rfl⟩
  · split at h
    · simp at h
    · next i _ x hx =>
      obtain ⟨hlt, rfl⟩ := List.getElem?_eq_some_iff.mp hx
      have key : (m.infos.set i ⟨(m.infos[i]).lib, (m.infos[i]).refs - 1⟩).map Info.lib = m.infos.map Info.lib := by
        rw [List.map_set]
        apply List.ext_getElem (by simp)
        intro n h1 h2
        rw [List.getElem_set]
        split
        · next e => subst e; simp
        · rfl
      split at h
      · simp at h
      · dsimp only at h
        split at h
        · unfold close at h
          split at h
          · split at h
            · simp at h
            · injection h with h; subst h; exact ⟨rfl, key⟩
          · split at h
            · simp at h
            · injection h with h; subst h; exact ⟨rfl, key⟩
        · injection h with h; subst h; exact ⟨rfl, key⟩

theorem step_from {os : Os} {m m' : Mem} {g : Spec.Origins} {o : Op} (hg : From os m g) (h : step os m o = some m') :
    From os m' (g.step o) := by
  have hv : ∀ k, g.vars[k]? = (m.vars[k]?).map Obj.info := fun k => by rw [hg.vars, List.getElem?_map]
  cases o with
  | load name =>
    simp only [step, Option.some.injEq] at h
    subst h
    refine ⟨?_, by simp [Spec.Origins.step, load, hg.names]⟩
    have : g.names.length = m.infos.length := by have := congrArg List.length hg.names; simpa using this
    simp [Spec.Origins.step, load, hg.vars, Obj.info, this]
  | native a =>
    simp only [step, Option.some.injEq] at h
    subst h
    exact ⟨by simp [Spec.Origins.step, hg.vars, Obj.info], hg.names⟩
  | copy k =>
    simp only [step] at h
    rw [Option.bind_eq_some_iff] at h
    obtain ⟨x, hx, h⟩ := h
    rw [Option.map_eq_some_iff] at h
    obtain ⟨m1, h1, rfl⟩ := h
    obtain ⟨e1, e2⟩ := acquire_from hg h1
    exact ⟨by simp [Spec.Origins.step, hv, hx, e1, hg.vars], by rw [show (g.step (.copy k)).names = g.names from rfl, hg.names, ← e2]⟩
  | drop k =>
    simp only [step] at h
    rw [Option.bind_eq_some_iff] at h
    obtain ⟨x, hx, h⟩ := h
    rw [Option.map_eq_some_iff] at h
    obtain ⟨m1, h1, rfl⟩ := h
    obtain ⟨e1, e2⟩ := release_from h1
    exact ⟨by simp [Spec.Origins.step, e1, hg.vars, List.eraseIdx_map], by rw [show (g.step (.drop k)).names = g.names from rfl, hg.names, ← e2]⟩
  | sym k y =>
    simp only [step] at h
    split at h
    · next i hx =>
      rw [Option.bind_eq_some_iff] at h
      obtain ⟨a, _, h⟩ := h
      rw [Option.map_eq_some_iff] at h
      obtain ⟨m1, h1, rfl⟩ := h
      obtain ⟨e1, e2⟩ := acquire_from hg h1
      exact ⟨by simp [Spec.Origins.step, hv, hx, e1, hg.vars, Obj.info],
        by rw [show (g.step (.sym k y)).names = g.names from rfl, hg.names, ← e2]⟩
    · simp at h
  | handleOf k =>
    simp only [step] at h
    split at h
    · next i a hx =>
      rw [Option.map_eq_some_iff] at h
      obtain ⟨m1, h1, rfl⟩ := h
      obtain ⟨e1, e2⟩ := acquire_from hg h1
      exact ⟨by simp [Spec.Origins.step, hv, hx, e1, hg.vars, Obj.info],
        by rw [show (g.step (.handleOf k)).names = g.names from rfl, hg.names, ← e2]⟩
    · simp at h
  | call k =>
    simp only [step] at h
    split at h
    · split at h
      · split at h
        · simp at h
        · injection h with h; subst h; exact ⟨hg.vars, hg.names⟩
      · injection h with h; subst h; exact ⟨hg.vars, hg.names⟩
    · simp at h

/-- Variable `k` is the only one of its load, which found nothing. -/
def FailedDrop (os : Os) (g : Spec.Origins) (o : Op) : Prop :=
  ∃ k j n : Nat, o = .drop k ∧ g.vars[k]? = some (some j) ∧ g.names[j]? = some n ∧ os.find n = none ∧
    ∀ k', g.vars[k']? = some (some j) → k' = k

theorem count_one_iff {l : List Obj} {k i : Nat} (hk : k < l.length) (hi : (l[k]).info = some i) :
    l.countP (refsTo i) = 1 ↔ ∀ k', (l[k']?).map Obj.info = some (some i) → k' = k := by
  have hperm := List.getElem_cons_eraseIdx_perm hk
  have htrue : refsTo i l[k] = true := by simp [refsTo, hi]
  rw [← hperm.countP_eq, List.countP_cons, htrue, if_pos rfl]
  have : (l.eraseIdx k).countP (refsTo i) + 1 = 1 ↔ (l.eraseIdx k).countP (refsTo i) = 0 := by omega
  rw [this, List.countP_eq_zero]
  constructor
  · intro h k' hk'
    by_contra hne
    rw [Option.map_eq_some_iff] at hk'
    obtain ⟨o, ho, hoi⟩ := hk'
    have hm : o ∈ l.eraseIdx k := by
      rw [List.mem_eraseIdx_iff_getElem?]
      exact ⟨k', hne, ho⟩
    exact h o hm (by simp [refsTo, hoi])
  · intro h o ho hr
    rw [List.mem_eraseIdx_iff_getElem?] at ho
    obtain ⟨k', hne, ho⟩ := ho
    simp only [refsTo, beq_iff_eq] at hr
    exact hne (h k' (by rw [ho, Option.map_some, hr]))

/-- One step on Linux is that on Windows, unless it drops the last variable of a load that failed. -/
theorem step_linux {os : Os} (hl : os.linux = true) {m : Mem} {s s' : Spec.State} {g : Spec.Origins} {o : Op}
    (hi : Inv (windows os) m s) (hg : From os m g) (h : Spec.step os s o = some s') :
    (FailedDrop os g o ∧ step os m o = none) ∨ (¬ FailedDrop os g o ∧ step os m o = step (windows os) m o) := by
  cases o with
  | drop k =>
    simp only [Spec.step] at h
    rw [get_var hi, Option.map_map, Option.map_eq_some_iff] at h
    obtain ⟨x, hx, _⟩ := h
    obtain ⟨hk, rfl⟩ := List.getElem?_eq_some_iff.mp hx
    have hv : ∀ k, g.vars[k]? = (m.vars[k]?).map Obj.info := fun k => by rw [hg.vars, List.getElem?_map]
    have hstep : ∀ w, step w m (.drop k) =
        (release w m (m.vars[k]).info).map fun m' => { m' with vars := m'.vars.eraseIdx k } := by
      intro w; simp only [step, hx, Option.bind_some]
    rw [hstep, hstep]
    cases hinf : (m.vars[k]).info with
    | none =>
      refine Or.inr ⟨?_, rfl⟩
      rintro ⟨k', j, n, hk', h1, _⟩
      injection hk' with hk'
      subst hk'
      rw [hv, hx, Option.map_some, hinf] at h1
      simp at h1
    | some i =>
      have hlt := hi.bound _ (List.getElem_mem hk) i hinf
      have hget : m.infos[i]? = some m.infos[i] := List.getElem?_eq_getElem hlt
      have hone := count_one_iff hk hinf
      have hname : ∃ n, g.names[i]? = some n ∧ os.find n = (m.infos[i]).lib := by
        have := congrArg (fun l => l[i]?) hg.names
        simp only [List.getElem?_map, hget, Option.map_some, Option.map_eq_some_iff] at this
        exact this
      obtain ⟨n, hn, hfn⟩ := hname
      have hiff : FailedDrop os g (.drop k) ↔ (m.infos[i]).refs = 1 ∧ (m.infos[i]).lib = none := by
        rw [hi.counts i hlt, hone]
        constructor
        · rintro ⟨k', j, n', hk', h1, h2, h3, h4⟩
          injection hk' with hk'
          subst hk'
          rw [hv, hx, Option.map_some, hinf, Option.some.injEq, Option.some.injEq] at h1
          subst h1
          refine ⟨fun k' hk' => h4 k' (by rw [hv, hk']), ?_⟩
          rw [hn, Option.some.injEq] at h2
          subst h2
          rw [← hfn, h3]
        · rintro ⟨h1, h2⟩
          refine ⟨k, i, n, rfl, by rw [hv, hx, Option.map_some, hinf], hn, by rw [hfn, h2], fun k' hk' => h1 k' (by rw [← hv, hk'])⟩
      by_cases hf : FailedDrop os g (.drop k)
      · refine Or.inl ⟨hf, ?_⟩
        obtain ⟨h1, h2⟩ := hiff.1 hf
        simp only [release, hget, h1, h2, close, hl]
        rfl
      · refine Or.inr ⟨hf, ?_⟩
        congr 1
        simp only [release, hget]
        split
        · rfl
        · split
          · next h1 =>
            have h2 : (m.infos[i]).lib ≠ none := fun h2 => hf (hiff.2 ⟨h1, h2⟩)
            cases hlib : (m.infos[i]).lib with
            | none => exact absurd hlib h2
            | some l => rfl
          · rfl
  | load name => exact Or.inr ⟨(fun ⟨_, _, _, h, _⟩ => by simp at h), rfl⟩
  | native a => exact Or.inr ⟨(fun ⟨_, _, _, h, _⟩ => by simp at h), rfl⟩
  | copy k => exact Or.inr ⟨(fun ⟨_, _, _, h, _⟩ => by simp at h), rfl⟩
  | sym k y => exact Or.inr ⟨(fun ⟨_, _, _, h, _⟩ => by simp at h), rfl⟩
  | handleOf k => exact Or.inr ⟨(fun ⟨_, _, _, h, _⟩ => by simp at h), rfl⟩
  | call k => exact Or.inr ⟨(fun ⟨_, _, _, h, _⟩ => by simp at h), rfl⟩

theorem run_linux {os : Os} (hl : os.linux = true) (ops : List Op) : ∀ {m : Mem} {s s' : Spec.State} {g : Spec.Origins},
    Inv (windows os) m s → From os m g → Spec.run os s ops = some s' →
    (run os m ops = none ↔ ∃ pre o post, ops = pre ++ o :: post ∧ FailedDrop os (pre.foldl Spec.Origins.step g) o) ∧
    (∀ m', run os m ops = some m' → run (windows os) m ops = some m') := by
  induction ops with
  | nil =>
    intro m s s' g hi hg h
    refine ⟨⟨nofun, ?_⟩, fun m' h => h⟩
    rintro ⟨pre, o, post, h, _⟩
    simp at h
  | cons o ops ih =>
    intro m s s' g hi hg h
    simp only [Spec.run] at h
    cases hs : Spec.step os s o with
    | none => rw [hs] at h; simp at h
    | some s1 =>
      rw [hs, Option.bind_some] at h
      have hsw : Spec.step (windows os) s o = some s1 := by rw [← hs]; cases o <;> rfl
      obtain ⟨m1, e1, hi1⟩ := step_inv hi hsw (fun hc => by simp [windows] at hc)
      rcases step_linux hl hi hg hs with ⟨hf, he⟩ | ⟨hf, he⟩
      · simp only [run, he, Option.bind_none]
        exact ⟨⟨fun _ => ⟨[], o, ops, rfl, hf⟩, fun _ => trivial⟩, nofun⟩
      · have hg1 := step_from hg (he.trans e1)
        obtain ⟨h1, h2⟩ := ih hi1 hg1 h
        simp only [run, he, e1, Option.bind_some]
        refine ⟨h1.trans ⟨?_, ?_⟩, h2⟩
        · rintro ⟨pre, o', post, rfl, h'⟩
          exact ⟨o :: pre, o', post, rfl, h'⟩
        · rintro ⟨pre, o', post, h, h'⟩
          cases pre with
          | nil =>
            simp only [List.nil_append, List.cons.injEq] at h
            rw [← h.1] at h'
            exact absurd h' hf
          | cons p pre =>
            simp only [List.cons_append, List.cons.injEq] at h
            rw [← h.1] at h'
            exact ⟨pre, o', post, h.2, h'⟩

end ELC.Lib
