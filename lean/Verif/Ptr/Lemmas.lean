import Verif.Ptr.Spec
import Mathlib.Tactic.Ring
import Mathlib.Tactic.SplitIfs
import Mathlib.Data.List.Count
/-! The invariant. -/
namespace ELC.Ptr

/-! ### the work ends -/

theorem sum_set {objs : List Obj} {i : Nat} {o : Obj} (h : objs[i]? = some o) (o' : Obj) (f : Obj → Nat) :
    ((objs.set i o').map f).sum + f o = (objs.map f).sum + f o' := by
  induction objs generalizing i with
  | nil => cases h
  | cons a l ih =>
    cases i with
    | zero => simp at h; subst h; simp [List.set]; omega
    | succ i =>
      rw [List.getElem?_cons_succ] at h
      have := ih h
      rw [List.set_cons_succ, List.map_cons, List.sum_cons, List.map_cons, List.sum_cons]; omega

theorem stored_some {h : Heap} {i : Nat} {o : Obj} (e : h.stored i = some o) : h.objs[i]? = some o ∧ o.phase ≠ .freed := by
  unfold Heap.stored at e
  rw [Option.bind_eq_some_iff] at e
  obtain ⟨o', h1, h2⟩ := e
  split at h2
  · cases h2
  · injection h2 with h2; subst h2; exact ⟨h1, by assumption⟩

theorem stored_of {h : Heap} {i : Nat} {o : Obj} (e : h.objs[i]? = some o) (hp : o.phase ≠ .freed) : h.stored i = some o := by
  unfold Heap.stored
  rw [e, Option.bind_some, if_neg hp]

theorem fieldCount_put {h : Heap} {i : Nat} {o : Obj} (e : h.objs[i]? = some o) (o' : Obj) :
    (h.put i o').fieldCount + o.fields.length = h.fieldCount + o'.fields.length :=
  sum_set e o' fun o => o.fields.length

theorem put_put (h : Heap) (i : Nat) (a b : Obj) : (h.put i a).put i b = h.put i b := by
  unfold Heap.put
  simp [List.set_set]

/-- What cutting a pointer does, case by case. -/
theorem cutRef_cases {h : Heap} {r : Ref} {ts : List Task} {p : Heap × List Task} (e : cutRef h r ts = some p) :
    ∃ o, h.stored r.to = some o ∧ (if r.weak then 0 < o.weakNum else 0 < o.strong) ∧
      ∃ s w, s = (if r.weak then o.strong else o.strong - 1) ∧ w = (if r.weak then o.weakNum - 1 else o.weakNum) ∧
        ((0 < s ∨ (r.weak = true ∧ 0 < w)) ∧ p = (h.put r.to { o with strong := s, weakNum := w }, ts) ∨
         (r.weak = false ∧ s = 0 ∧ 0 < w ∧ p = ({ h.put r.to { o with strong := 0, weakNum := w, phase := .cleared } with
            ended := r.to :: h.ended }, .clear r.to :: ts)) ∨
         (s = 0 ∧ w = 0 ∧ o.phase ≠ .dying ∧ p = ({ h.put r.to { o with strong := 0, weakNum := 0, phase := .dying } with
            ended := if o.phase = .alive then r.to :: h.ended else h.ended, destroyed := r.to :: h.destroyed }, .destroy r.to :: ts))) := by
  unfold cutRef at e
  rw [Option.bind_eq_some_iff] at e
  obtain ⟨o, e1, e⟩ := e
  refine ⟨o, e1, ?_⟩
  cases hw : r.weak
  · simp only [hw, Bool.false_eq_true, if_false] at e ⊢
    split at e
    · cases e
    · next h0 =>
      refine ⟨by omega, o.strong - 1, o.weakNum, rfl, rfl, ?_⟩
      split at e
      · next h1 =>
        split at e
        · next h2 =>
          injection e with e; subst e
          refine Or.inr (Or.inl ⟨trivial, h1, by omega, ?_⟩)
          simp only [waitingForDestroy, put_put]
          rfl
        · next h2 =>
          unfold destroyAndFree at e
          split at e
          · cases e
          · next h3 =>
            injection e with e; subst e
            refine Or.inr (Or.inr ⟨h1, by omega, h3, ?_⟩)
            simp only [put_put]
            have : o.weakNum = 0 := by omega
            rw [show ({ o with strong := 0, weakNum := 0, phase := Phase.dying } : Obj) =
              { o with strong := 0, phase := Phase.dying } by rw [this]]
            rfl
      · injection e with e; subst e
        exact Or.inl ⟨Or.inl (by omega), rfl⟩
  · simp only [hw, if_true] at e ⊢
    split at e
    · cases e
    · next h0 =>
      refine ⟨by omega, o.strong, o.weakNum - 1, rfl, rfl, ?_⟩
      split at e
      · next h1 =>
        unfold destroyAndFree at e
        split at e
        · cases e
        · next h3 =>
          injection e with e; subst e
          refine Or.inr (Or.inr ⟨h1.2, h1.1, h3, ?_⟩)
          simp only [put_put]
          rw [show ({ o with strong := 0, weakNum := 0, phase := Phase.dying } : Obj) =
              { o with weakNum := 0, phase := Phase.dying } by rw [h1.2]]
          rfl
      · next h1 =>
        injection e with e; subst e
        exact Or.inl ⟨by simp only [true_and]; omega, rfl⟩

theorem step_weight {h : Heap} {t : Task} {ts : List Task} {p : Heap × List Task} (e : step h t ts = some p) :
    weight p.1 p.2 < weight h (t :: ts) := by
  unfold weight
  cases t with
  | cut r =>
    obtain ⟨o, h1, _, s, w, _, _, h2⟩ := cutRef_cases e
    have hf := fieldCount_put (stored_some h1).1
    rcases h2 with ⟨_, rfl⟩ | ⟨_, _, _, rfl⟩ | ⟨_, _, _, rfl⟩
    · have := hf { o with strong := s, weakNum := w }
      simp only [List.map_cons, List.sum_cons, Task.weight] at this ⊢; omega
    · have := hf { o with strong := 0, weakNum := w, phase := .cleared }
      simp only [List.map_cons, List.sum_cons, Task.weight] at this ⊢
      unfold Heap.fieldCount at this ⊢
      dsimp only at this ⊢
      omega
    · have := hf { o with strong := 0, weakNum := 0, phase := .dying }
      simp only [List.map_cons, List.sum_cons, Task.weight] at this ⊢
      unfold Heap.fieldCount at this ⊢
      dsimp only at this ⊢
      omega
  | clear i =>
    simp only [step, Option.map_eq_some_iff] at e
    obtain ⟨o, h1, e⟩ := e
    have hf := fieldCount_put (stored_some h1).1
    cases hc : o.fields with
    | nil => rw [hc] at e; subst e; simp only [List.map_cons, List.sum_cons, Task.weight]; omega
    | cons r rs =>
      rw [hc] at e; subst e
      have := hf { o with fields := rs }
      simp only [hc, List.map_cons, List.sum_cons, Task.weight, List.length_cons] at this ⊢; omega
  | destroy i =>
    simp only [step, Option.map_eq_some_iff] at e
    obtain ⟨o, h1, e⟩ := e
    have hf := fieldCount_put (stored_some h1).1
    cases hc : o.fields with
    | nil =>
      rw [hc] at e; subst e
      have := hf { o with phase := .freed }
      simp only [hc, List.map_cons, List.sum_cons, Task.weight, List.length_nil] at this ⊢; omega
    | cons r rs =>
      rw [hc] at e; subst e
      have := hf { o with fields := rs }
      simp only [hc, List.map_cons, List.sum_cons, Task.weight, List.length_cons] at this ⊢; omega

theorem work_nil (h : Heap) : work h [] = some h := by rw [work.eq_def]

theorem work_cons (h : Heap) (t : Task) (ts : List Task) : work h (t :: ts) = (step h t ts).bind fun p => work p.1 p.2 := by
  rw [work.eq_def]
  dsimp only
  cases e : step h t ts with
  | none => rfl
  | some p => rw [Option.bind_some, Option.bind_some, dif_pos (step_weight e)]

/-! ### the invariant -/

/-- The pointers whose end has begun. -/
def cuts (ts : List Task) : List Ref := ts.filterMap fun t => match t with | .cut r => some r | _ => none

/-- The objects whose destructor is running. -/
def dyings (ts : List Task) : List Nat := ts.filterMap fun t => match t with | .destroy i => some i | _ => none

/-- All pointers there are. -/
def refs (roots : List Ref) (h : Heap) (ts : List Task) : List Ref := roots ++ (h.objs.flatMap Obj.fields ++ cuts ts)

/-- The phase that goes with the counts. -/
def PhaseOk (o : Obj) (running : Bool) : Prop :=
  (0 < o.strong → o.phase = .alive) ∧ (o.strong = 0 → 0 < o.weakNum → o.phase = .cleared) ∧
  (o.strong = 0 → o.weakNum = 0 → if running then o.phase = .dying else o.phase = .freed ∧ o.fields = [])

structure Inv (roots : List Ref) (h : Heap) (ts : List Task) : Prop where
  strong : ∀ i o, h.objs[i]? = some o → o.strong = (refs roots h ts).count ⟨false, i⟩ + if i = 0 then 1 else 0
  weak : ∀ i o, h.objs[i]? = some o → o.weakNum = (refs roots h ts).count ⟨true, i⟩
  valid : ∀ r ∈ refs roots h ts, r.to < h.objs.length
  phase : ∀ i o, h.objs[i]? = some o → PhaseOk o ((dyings ts).contains i)
  nodup : (dyings ts).Nodup
  running : ∀ i ∈ dyings ts, ∃ o, h.objs[i]? = some o ∧ o.strong = 0 ∧ o.weakNum = 0
  ended : ∀ i o, h.objs[i]? = some o → h.ended.count i = if 0 < o.strong then 0 else 1
  destroyed : ∀ i o, h.objs[i]? = some o → h.destroyed.count i = if 0 < o.strong ∨ 0 < o.weakNum then 0 else 1
  made : ∀ i, (i ∈ h.ended ∨ i ∈ h.destroyed) → i < h.objs.length

theorem count_flatMap_set {objs : List Obj} {i : Nat} {o : Obj} (h : objs[i]? = some o) (o' : Obj) (r : Ref) :
    ((objs.set i o').flatMap Obj.fields).count r + o.fields.count r = (objs.flatMap Obj.fields).count r + o'.fields.count r := by
  induction objs generalizing i with
  | nil => cases h
  | cons a l ih =>
    cases i with
    | zero => simp at h; subst h; simp [List.set]; omega
    | succ i => simp at h; have := ih h; simp [List.set]; omega

theorem flatMap_set_same {objs : List Obj} {i : Nat} {o : Obj} (h : objs[i]? = some o) {o' : Obj} (hf : o'.fields = o.fields) :
    (objs.set i o').flatMap Obj.fields = objs.flatMap Obj.fields := by
  induction objs generalizing i with
  | nil => cases h
  | cons a l ih =>
    cases i with
    | zero => simp at h; subst h; simp [List.set, hf]
    | succ i => simp at h; have := ih h; simp [List.set, this]

theorem put_get (h : Heap) (i j : Nat) (o : Obj) :
    (h.put i o).objs[j]? = if i = j then (if i < h.objs.length then some o else none) else h.objs[j]? := by
  unfold Heap.put
  rw [List.getElem?_set]

theorem lt_of_get {objs : List Obj} {i : Nat} {o : Obj} (h : objs[i]? = some o) : i < objs.length := by
  by_contra hc
  rw [List.getElem?_eq_none (by omega)] at h
  cases h

theorem refs_put_same {roots : List Ref} {h : Heap} {i : Nat} {o o' : Obj} {ts : List Task} (e : h.objs[i]? = some o)
    (hf : o'.fields = o.fields) : refs roots (h.put i o') ts = refs roots h ts := by
  unfold refs Heap.put
  rw [flatMap_set_same e hf]

theorem refs_cut (roots : List Ref) (h : Heap) (r : Ref) (ts : List Task) (r' : Ref) :
    (refs roots h (.cut r :: ts)).count r' = (refs roots h ts).count r' + if r = r' then 1 else 0 := by
  unfold refs cuts
  simp only [List.filterMap_cons, List.count_append, List.count_cons, beq_iff_eq]
  omega

theorem refs_cut_mem {roots : List Ref} {h : Heap} {r : Ref} {ts : List Task} {r' : Ref} (hm : r' ∈ refs roots h ts) :
    r' ∈ refs roots h (.cut r :: ts) := by
  unfold refs cuts at *
  simp only [List.filterMap_cons, List.mem_append, List.mem_cons] at *
  tauto

theorem refs_cut_self (roots : List Ref) (h : Heap) (r : Ref) (ts : List Task) : r ∈ refs roots h (.cut r :: ts) := by
  unfold refs cuts
  simp

theorem refs_clear (roots : List Ref) (h : Heap) (i : Nat) (ts : List Task) : refs roots h (.clear i :: ts) = refs roots h ts := rfl
theorem refs_destroy (roots : List Ref) (h : Heap) (i : Nat) (ts : List Task) : refs roots h (.destroy i :: ts) = refs roots h ts := rfl

/-- The refs of a heap depend on its objects only. -/
theorem refs_objs {roots : List Ref} {h h' : Heap} {ts : List Task} (e : h.objs = h'.objs) : refs roots h ts = refs roots h' ts := by
  unfold refs; rw [e]

/-- A pointer to the object at `i` being cut: the object has a count above zero. -/
theorem inv_cut_pos {roots : List Ref} {h : Heap} {r : Ref} {ts : List Task} (inv : Inv roots h (.cut r :: ts)) :
    ∃ o, h.objs[r.to]? = some o ∧ o.phase ≠ .freed ∧ o.phase ≠ .dying ∧ (if r.weak then 0 < o.weakNum else 0 < o.strong) ∧
      r.to ∉ dyings ts := by
  have hl := inv.valid r (refs_cut_self _ _ _ _)
  have hc : 0 < (refs roots h (.cut r :: ts)).count r := List.count_pos_iff.2 (refs_cut_self _ _ _ _)
  obtain ⟨o, ho⟩ : ∃ o, h.objs[r.to]? = some o := ⟨_, List.getElem?_eq_getElem hl⟩
  have hs := inv.strong _ _ ho
  have hw := inv.weak _ _ ho
  obtain ⟨p1, p2, p3⟩ := inv.phase _ _ ho
  have hpos : if r.weak then 0 < o.weakNum else 0 < o.strong := by
    obtain ⟨b, i⟩ := r
    cases b
    · dsimp only at *; simp only [Bool.false_eq_true, if_false]; omega
    · dsimp only at *; simp only [if_true]; omega
  have hor : 0 < o.strong ∨ 0 < o.weakNum := by split at hpos <;> omega
  have hne : o.phase ≠ .freed ∧ o.phase ≠ .dying := by
    by_cases h0 : 0 < o.strong
    · rw [p1 h0]; decide
    · rw [p2 (by omega) (by omega)]; decide
  refine ⟨o, ho, hne.1, hne.2, hpos, fun hm => ?_⟩
  obtain ⟨o', ho', h1, h2⟩ := inv.running _ hm
  rw [ho] at ho'; injection ho' with ho'; subst ho'
  omega

theorem inv_cut {roots : List Ref} {h : Heap} {r : Ref} {ts : List Task} (inv : Inv roots h (.cut r :: ts)) {p : Heap × List Task}
    (e : cutRef h r ts = some p) : Inv roots p.1 p.2 := by
  obtain ⟨o0, ho0, _, _, _, hnd⟩ := inv_cut_pos inv
  obtain ⟨o, hst, hpos, s, w, hs, hw, hcase⟩ := cutRef_cases e
  obtain ⟨ho, hnf⟩ := stored_some hst
  rw [ho0] at ho; injection ho with ho; subst ho
  rename' o0 => o, ho0 => ho
  have hlt := lt_of_get ho
  have hdy : dyings (.cut r :: ts) = dyings ts := rfl
  have e1 := inv.strong _ _ ho
  have e2 := inv.weak _ _ ho
  rw [refs_cut] at e1 e2
  -- the counts of the changed object
  have es : s = (refs roots h ts).count ⟨false, r.to⟩ + if r.to = 0 then 1 else 0 := by
    obtain ⟨b, i⟩ := r
    cases b
    · simp only [Bool.false_eq_true, if_false, if_true] at *; omega
    · simp only [if_true, Ref.mk.injEq, Bool.true_eq_false, false_and, if_false] at *; omega
  have ew : w = (refs roots h ts).count ⟨true, r.to⟩ := by
    obtain ⟨b, i⟩ := r
    cases b
    · simp only [Bool.false_eq_true, if_false, Ref.mk.injEq, false_and] at *; omega
    · simp only [if_true] at *; omega
  have ec : ∀ j, r.to ≠ j → ∀ b, (refs roots h (.cut r :: ts)).count ⟨b, j⟩ = (refs roots h ts).count ⟨b, j⟩ := by
    intro j hj b
    rw [refs_cut, if_neg (by intro hh; apply hj; rw [hh]), Nat.add_zero]
  obtain ⟨p1, p2, p3⟩ := inv.phase _ _ ho
  rw [hdy] at p3
  have hnc : (dyings ts).contains r.to = false := by simpa using hnd
  have hother : ∀ j o', r.to ≠ j → h.objs[j]? = some o' → o'.strong = (refs roots h ts).count ⟨false, j⟩ + (if j = 0 then 1 else 0) ∧
      o'.weakNum = (refs roots h ts).count ⟨true, j⟩ := by
    intro j o' hj hj'
    have a := inv.strong _ _ hj'
    have b := inv.weak _ _ hj'
    rw [ec j hj] at a b
    exact ⟨a, b⟩
  rcases hcase with ⟨hc, rfl⟩ | ⟨hrw, hs0, hw0, rfl⟩ | ⟨hs0, hw0, hnd', rfl⟩
  · -- a count goes down, nothing else
    have hr : refs roots (h.put r.to { o with strong := s, weakNum := w }) ts = refs roots h ts := refs_put_same ho rfl
    have hsame : (0 < s ↔ 0 < o.strong) ∧ ((0 < s ∨ 0 < w) ↔ (0 < o.strong ∨ 0 < o.weakNum)) := by
      cases hb : r.weak <;> simp only [hb, Bool.false_eq_true, if_false, if_true, false_and, true_and, or_false] at * <;> omega
    refine ⟨?_, ?_, ?_, ?_, inv.nodup, ?_, ?_, ?_, ?_⟩
    · intro j o' hj
      rw [put_get, hr] at *
      split_ifs at hj with h1
      · injection hj with hj; subst hj; subst h1; exact es
      · exact (hother j o' h1 hj).1
    · intro j o' hj
      rw [put_get, hr] at *
      split_ifs at hj with h1
      · injection hj with hj; subst hj; subst h1; exact ew
      · exact (hother j o' h1 hj).2
    · intro r' hr'
      rw [hr] at hr'
      have := inv.valid r' (refs_cut_mem hr')
      simpa [Heap.put] using this
    · intro j o' hj
      rw [put_get] at hj
      split_ifs at hj with h1
      · injection hj with hj; subst hj; subst h1
        refine ⟨fun h2 => p1 (hsame.1.1 h2), fun h2 h3 => ?_, fun h2 h3 => ?_⟩
        · dsimp only at h2 h3 ⊢
          have := hsame.1; have := hsame.2
          exact p2 (by omega) (by omega)
        · dsimp only at h2 h3; omega
      · exact inv.phase _ _ hj
    · intro j hj
      obtain ⟨o', h1, h2⟩ := inv.running j hj
      have hne : r.to ≠ j := by rintro rfl; exact hnd hj
      exact ⟨o', by rw [put_get, if_neg hne]; exact h1, h2⟩
    · intro j o' hj
      rw [put_get] at hj
      split_ifs at hj with h1
      · injection hj with hj; subst hj; subst h1
        have := inv.ended _ _ ho
        dsimp only [Heap.put]
        rw [this]; simp only [hsame.1]
      · exact inv.ended _ _ hj
    · intro j o' hj
      rw [put_get] at hj
      split_ifs at hj with h1
      · injection hj with hj; subst hj; subst h1
        have := inv.destroyed _ _ ho
        dsimp only [Heap.put]
        rw [this]; simp only [hsame.2]
      · exact inv.destroyed _ _ hj
    · intro j hj
      have := inv.made j hj
      simpa [Heap.put] using this
  · -- emptied
    have ho_strong : 0 < o.strong := by simpa [hrw] using hpos
    have hwe : w = o.weakNum := by simpa [hrw] using hw
    have hr : refs roots { h.put r.to { o with strong := 0, weakNum := w, phase := .cleared } with ended := r.to :: h.ended }
        (.clear r.to :: ts) = refs roots h ts := by
      rw [refs_clear]
      exact (refs_objs rfl).trans (refs_put_same (o' := { o with strong := 0, weakNum := w, phase := .cleared }) ho rfl)
    have hg : ∀ j, ({ h.put r.to { o with strong := 0, weakNum := w, phase := .cleared } with ended := r.to :: h.ended } : Heap).objs[j]? =
        if r.to = j then (if r.to < h.objs.length then some { o with strong := 0, weakNum := w, phase := .cleared } else none) else h.objs[j]? :=
      fun j => put_get h r.to j _
    refine ⟨?_, ?_, ?_, ?_, inv.nodup, ?_, ?_, ?_, ?_⟩
    · intro j o' hj
      rw [hg] at hj; rw [hr]
      split_ifs at hj with h1
      · injection hj with hj; subst hj; subst h1; rw [← es, hs0]
      · exact (hother j o' h1 hj).1
    · intro j o' hj
      rw [hg] at hj; rw [hr]
      split_ifs at hj with h1
      · injection hj with hj; subst hj; subst h1; exact ew
      · exact (hother j o' h1 hj).2
    · intro r' hr'
      rw [hr] at hr'
      have := inv.valid r' (refs_cut_mem hr')
      simpa [Heap.put] using this
    · intro j o' hj
      rw [hg] at hj
      split_ifs at hj with h1
      · injection hj with hj; subst hj; subst h1
        refine ⟨fun h2 => ?_, fun _ _ => rfl, fun _ h3 => ?_⟩
        · dsimp only at h2; omega
        · dsimp only at h3; omega
      · exact inv.phase _ _ hj
    · intro j hj
      obtain ⟨o', h1, h2⟩ := inv.running j hj
      have hne : r.to ≠ j := by rintro rfl; exact hnd hj
      exact ⟨o', by rw [hg, if_neg hne]; exact h1, h2⟩
    · intro j o' hj
      rw [hg] at hj
      split_ifs at hj with h1
      · injection hj with hj; subst hj; subst h1
        have := inv.ended _ _ ho
        rw [if_pos ho_strong] at this
        simp [this]
      · have := inv.ended _ _ hj
        dsimp only
        rw [List.count_cons_of_ne h1, this]
    · intro j o' hj
      rw [hg] at hj
      split_ifs at hj with h1
      · injection hj with hj; subst hj; subst h1
        have := inv.destroyed _ _ ho
        rw [if_pos (Or.inl ho_strong)] at this
        dsimp only [Heap.put]
        rw [this, if_pos (Or.inr hw0)]
      · exact inv.destroyed _ _ hj
    · intro j hj
      simp only [Heap.put, List.mem_cons, List.length_set] at hj ⊢
      rcases hj with (rfl | hj) | hj
      · exact hlt
      · exact inv.made j (Or.inl hj)
      · exact inv.made j (Or.inr hj)
  · -- destroyed
    have hor : 0 < o.strong ∨ 0 < o.weakNum := by
      cases hb : r.weak <;> simp only [hb, Bool.false_eq_true, if_false, if_true] at hpos <;> omega
    have hph : (o.phase = .alive ↔ 0 < o.strong) := by
      constructor
      · intro ha
        by_contra hc
        have := p2 (by omega) (by omega)
        rw [ha] at this; cases this
      · exact p1
    have hr : refs roots { h.put r.to { o with strong := 0, weakNum := 0, phase := .dying } with
        ended := if o.phase = .alive then r.to :: h.ended else h.ended, destroyed := r.to :: h.destroyed }
        (.destroy r.to :: ts) = refs roots h ts := by
      rw [refs_destroy]
      exact (refs_objs rfl).trans (refs_put_same (o' := { o with strong := 0, weakNum := 0, phase := .dying }) ho rfl)
    have hg : ∀ j, ({ h.put r.to { o with strong := 0, weakNum := 0, phase := .dying } with
        ended := if o.phase = .alive then r.to :: h.ended else h.ended, destroyed := r.to :: h.destroyed } : Heap).objs[j]? =
        if r.to = j then (if r.to < h.objs.length then some { o with strong := 0, weakNum := 0, phase := .dying } else none) else h.objs[j]? :=
      fun j => put_get h r.to j _
    have hds : dyings (.destroy r.to :: ts) = r.to :: dyings ts := rfl
    refine ⟨?_, ?_, ?_, ?_, ?_, ?_, ?_, ?_, ?_⟩
    · intro j o' hj
      rw [hg] at hj; rw [hr]
      split_ifs at hj with h1
      · injection hj with hj; subst hj; subst h1; rw [← es, hs0]
      · exact (hother j o' h1 hj).1
    · intro j o' hj
      rw [hg] at hj; rw [hr]
      split_ifs at hj with h1
      · injection hj with hj; subst hj; subst h1; rw [← ew, hw0]
      · exact (hother j o' h1 hj).2
    · intro r' hr'
      rw [hr] at hr'
      have := inv.valid r' (refs_cut_mem hr')
      simpa [Heap.put] using this
    · intro j o' hj
      rw [hg] at hj
      dsimp only
      rw [hds]
      split_ifs at hj with h1
      · injection hj with hj; subst hj; subst h1
        refine ⟨fun h2 => ?_, fun _ h3 => ?_, fun _ _ => ?_⟩
        · dsimp only at h2; omega
        · dsimp only at h3; omega
        · simp
      · have := inv.phase _ _ hj
        have hcon : (r.to :: dyings ts).contains j = (dyings ts).contains j := by
          simp [Ne.symm h1]
        rw [hcon]; exact this
    · rw [hds]; exact List.nodup_cons.2 ⟨hnd, inv.nodup⟩
    · intro j hj
      rw [hds] at hj
      by_cases h1 : r.to = j
      · subst h1
        exact ⟨{ o with strong := 0, weakNum := 0, phase := .dying }, by rw [hg, if_pos rfl, if_pos hlt], rfl, rfl⟩
      · rcases List.mem_cons.1 hj with h2 | h2
        · exact absurd h2.symm h1
        obtain ⟨o', h3, h4⟩ := inv.running j h2
        exact ⟨o', by rw [hg, if_neg h1]; exact h3, h4⟩
    · intro j o' hj
      rw [hg] at hj
      split_ifs at hj with h1
      · injection hj with hj; subst hj; subst h1
        have := inv.ended _ _ ho
        by_cases h2 : o.phase = .alive
        · rw [if_pos (hph.1 h2)] at this
          simp [h2, this]
        · rw [if_neg (fun h3 => h2 (hph.2 h3))] at this
          simp [h2, this]
      · have := inv.ended _ _ hj
        dsimp only
        rw [← this]
        split_ifs
        · rw [List.count_cons_of_ne h1]
        · rfl
    · intro j o' hj
      rw [hg] at hj
      split_ifs at hj with h1
      · injection hj with hj; subst hj; subst h1
        have := inv.destroyed _ _ ho
        rw [if_pos hor] at this
        simp [this]
      · have := inv.destroyed _ _ hj
        dsimp only
        rw [List.count_cons_of_ne h1, this]
    · intro j hj
      simp only [Heap.put, List.mem_cons, List.length_set] at hj ⊢
      rcases hj with hj | rfl | hj
      · split_ifs at hj
        · rcases List.mem_cons.1 hj with rfl | hj
          · exact hlt
          · exact inv.made j (Or.inl hj)
        · exact inv.made j (Or.inl hj)
      · exact hlt
      · exact inv.made j (Or.inr hj)

theorem mem_of_count {a b : List Ref} (h : ∀ r, a.count r = b.count r) {r : Ref} (hm : r ∈ a) : r ∈ b := by
  rw [← List.count_pos_iff] at hm ⊢
  rw [← h]; exact hm

/-- The invariant only depends on how many pointers of each kind there are; members may be moved about. -/
theorem inv_fields {roots roots' : List Ref} {h : Heap} {ts ts' : List Task} (inv : Inv roots h ts) {i : Nat} {o : Obj}
    (ho : h.objs[i]? = some o) {fs : List Ref} (hf : o.phase = .freed → fs = [])
    (hc : ∀ r, (refs roots' (h.put i { o with fields := fs }) ts').count r = (refs roots h ts).count r)
    (hd : dyings ts' = dyings ts) : Inv roots' (h.put i { o with fields := fs }) ts' := by
  have hlt := lt_of_get ho
  have hg : ∀ (j : Nat) (o' : Obj), (h.put i { o with fields := fs }).objs[j]? = some o' → ∃ o'' : Obj, h.objs[j]? = some o'' ∧
      o'.strong = o''.strong ∧ o'.weakNum = o''.weakNum ∧ o'.phase = o''.phase ∧
      (o''.phase = .freed → o''.fields = [] → o'.fields = []) := by
    intro j o' hj
    rw [put_get] at hj
    split_ifs at hj with h1
    · injection hj with hj; subst hj; subst h1
      exact ⟨o, ho, rfl, rfl, rfl, fun h2 _ => hf h2⟩
    · exact ⟨o', hj, rfl, rfl, rfl, fun _ h2 => h2⟩
  refine ⟨?_, ?_, ?_, ?_, ?_, ?_, ?_, ?_, ?_⟩
  · intro j o' hj
    obtain ⟨o'', h1, h2, h3, h4⟩ := hg j o' hj
    rw [hc, h2]; exact inv.strong _ _ h1
  · intro j o' hj
    obtain ⟨o'', h1, h2, h3, h4⟩ := hg j o' hj
    rw [hc, h3]; exact inv.weak _ _ h1
  · intro r hr
    have := inv.valid r (mem_of_count hc hr)
    simpa [Heap.put] using this
  · intro j o' hj
    obtain ⟨o'', h1, h2, h3, h4, h5⟩ := hg j o' hj
    obtain ⟨p1, p2, p3⟩ := inv.phase _ _ h1
    rw [hd]
    unfold PhaseOk
    rw [h2, h3, h4]
    refine ⟨p1, p2, fun a b => ?_⟩
    have := p3 a b
    split_ifs at this ⊢ with h6
    · exact this
    · exact ⟨this.1, h5 this.1 this.2⟩
  · rw [hd]; exact inv.nodup
  · intro j hj
    rw [hd] at hj
    obtain ⟨o', h1, h2, h3⟩ := inv.running j hj
    by_cases h4 : i = j
    · subst h4
      rw [ho] at h1; injection h1 with h1; subst h1
      exact ⟨{ o with fields := fs }, by rw [put_get, if_pos rfl, if_pos hlt], h2, h3⟩
    · exact ⟨o', by rw [put_get, if_neg h4]; exact h1, h2, h3⟩
  · intro j o' hj
    obtain ⟨o'', h1, h2, h3, h4⟩ := hg j o' hj
    rw [h2]; exact inv.ended _ _ h1
  · intro j o' hj
    obtain ⟨o'', h1, h2, h3, h4⟩ := hg j o' hj
    rw [h2, h3]; exact inv.destroyed _ _ h1
  · intro j hj
    have := inv.made j hj
    simpa [Heap.put] using this

theorem inv_counts {roots roots' : List Ref} {h : Heap} {ts ts' : List Task} (inv : Inv roots h ts)
    (hc : ∀ r, (refs roots' h ts').count r = (refs roots h ts).count r) (hd : dyings ts' = dyings ts) : Inv roots' h ts' := by
  refine ⟨?_, ?_, ?_, ?_, ?_, ?_, inv.ended, inv.destroyed, inv.made⟩
  · intro j o hj; rw [hc]; exact inv.strong _ _ hj
  · intro j o hj; rw [hc]; exact inv.weak _ _ hj
  · intro r hr; exact inv.valid r (mem_of_count hc hr)
  · rw [hd]; exact inv.phase
  · rw [hd]; exact inv.nodup
  · rw [hd]; exact inv.running

/-- A member taken out of an object, to be cut. -/
theorem inv_take {roots : List Ref} {h : Heap} {t : Task} {ts : List Task} (ht : cuts [t] = [])
    (inv : Inv roots h (t :: ts)) {i : Nat} {o : Obj} (ho : h.objs[i]? = some o) (hf : o.phase ≠ .freed) {r : Ref} {rs : List Ref}
    (hfs : o.fields = r :: rs) : Inv roots (h.put i { o with fields := rs }) (.cut r :: t :: ts) := by
  refine inv_fields inv ho (fun h1 => absurd h1 hf) (fun r' => ?_) rfl
  rw [refs_cut]
  have hc := count_flatMap_set ho { o with fields := rs } r'
  rw [hfs] at hc
  simp only [List.count_cons, beq_iff_eq] at hc
  have e1 : cuts (t :: ts) = cuts ts := by
    have : cuts (t :: ts) = cuts [t] ++ cuts ts := by unfold cuts; rw [← List.filterMap_append]; rfl
    rw [this, ht]; rfl
  unfold refs
  rw [e1]
  simp only [List.count_append]
  dsimp only [Heap.put]
  omega

theorem inv_step {roots : List Ref} {h : Heap} {t : Task} {ts : List Task} (inv : Inv roots h (t :: ts)) {p : Heap × List Task}
    (e : step h t ts = some p) : Inv roots p.1 p.2 := by
  cases t with
  | cut r => exact inv_cut inv e
  | clear i =>
    simp only [step, Option.map_eq_some_iff] at e
    obtain ⟨o, h1, e⟩ := e
    obtain ⟨h2, h3⟩ := stored_some h1
    cases hc : o.fields with
    | nil => rw [hc] at e; subst e; exact inv_counts inv (fun r => rfl) rfl
    | cons r rs => rw [hc] at e; subst e; exact inv_take rfl inv h2 h3 hc
  | destroy i =>
    simp only [step, Option.map_eq_some_iff] at e
    obtain ⟨o, h1, e⟩ := e
    obtain ⟨h2, h3⟩ := stored_some h1
    cases hc : o.fields with
    | cons r rs => rw [hc] at e; subst e; exact inv_take rfl inv h2 h3 hc
    | nil =>
      rw [hc] at e; subst e
      dsimp only
      have hds : dyings (.destroy i :: ts) = i :: dyings ts := rfl
      obtain ⟨o', ho', s0, w0⟩ := inv.running i (by rw [hds]; simp)
      rw [h2] at ho'; injection ho' with ho'; subst ho'
      have hnd := inv.nodup
      rw [hds, List.nodup_cons] at hnd
      have hlt := lt_of_get h2
      have hr : refs roots (h.put i { o with phase := .freed, fields := [] }) ts = refs roots h ts := refs_put_same h2 hc.symm
      have hr0 : refs roots h (.destroy i :: ts) = refs roots h ts := rfl
      have hg : ∀ (j : Nat) (o' : Obj), (h.put i { o with phase := .freed, fields := [] }).objs[j]? = some o' → ∃ o'' : Obj, h.objs[j]? = some o'' ∧
          o'.strong = o''.strong ∧ o'.weakNum = o''.weakNum := by
        intro j o' hj
        rw [put_get] at hj
        split_ifs at hj with h1
        · injection hj with hj; subst hj; subst h1; exact ⟨o, h2, rfl, rfl⟩
        · exact ⟨o', hj, rfl, rfl⟩
      refine ⟨?_, ?_, ?_, ?_, hnd.2, ?_, ?_, ?_, ?_⟩
      · intro j o' hj
        obtain ⟨o'', h1, e1, e2⟩ := hg j o' hj
        rw [hr, e1]; exact inv.strong _ _ h1
      · intro j o' hj
        obtain ⟨o'', h1, e1, e2⟩ := hg j o' hj
        rw [hr, e2]; exact inv.weak _ _ h1
      · intro r hr'
        rw [hr] at hr'
        have := inv.valid r hr'
        simpa [Heap.put] using this
      · intro j o' hj
        rw [put_get] at hj
        split_ifs at hj with h1
        · injection hj with hj; subst hj; subst h1
          refine ⟨fun h2 => ?_, fun _ h3 => ?_, fun _ _ => ?_⟩
          · dsimp only at h2; omega
          · dsimp only at h3; omega
          · rw [if_neg (by simpa using hnd.1)]; exact ⟨rfl, rfl⟩
        · have := inv.phase _ _ hj
          have hcon : (dyings (.destroy i :: ts)).contains j = (dyings ts).contains j := by
            rw [hds]; simp [Ne.symm h1]
          rw [hcon] at this; exact this
      · intro j hj
        obtain ⟨o', h1, h4⟩ := inv.running j (by rw [hds]; exact List.mem_cons_of_mem _ hj)
        have hne : i ≠ j := by rintro rfl; exact hnd.1 hj
        exact ⟨o', by rw [put_get, if_neg hne]; exact h1, h4⟩
      · intro j o' hj
        obtain ⟨o'', h1, e1, e2⟩ := hg j o' hj
        rw [e1]; exact inv.ended _ _ h1
      · intro j o' hj
        obtain ⟨o'', h1, e1, e2⟩ := hg j o' hj
        rw [e1, e2]; exact inv.destroyed _ _ h1
      · intro j hj
        have := inv.made j hj
        simpa [Heap.put] using this

/-- The work ends, and keeps the invariant. -/
theorem inv_work {roots : List Ref} : ∀ n {h : Heap} {ts : List Task}, weight h ts = n → Inv roots h ts → ∀ {h'},
    work h ts = some h' → Inv roots h' [] := by
  intro n
  induction n using Nat.strong_induction_on with
  | _ n ih =>
    intro h ts hn inv h' e
    cases ts with
    | nil => rw [work_nil] at e; injection e with e; subst e; exact inv
    | cons t ts =>
      rw [work_cons, Option.bind_eq_some_iff] at e
      obtain ⟨p, e1, e2⟩ := e
      exact ih _ (by rw [← hn]; exact step_weight e1) rfl (inv_step inv e1) e2

/-- A step fails only when `clear()` goes on in an object that is gone. -/
theorem step_none {roots : List Ref} {h : Heap} {t : Task} {ts : List Task} (inv : Inv roots h (t :: ts)) (e : step h t ts = none) :
    ∃ i, t = .clear i ∧ h.stored i = none := by
  cases t with
  | cut r =>
    exfalso
    obtain ⟨o, ho, h1, h2, h3, _⟩ := inv_cut_pos inv
    simp only [step, cutRef, stored_of ho h1, Option.bind_some] at e
    cases hw : r.weak
    · simp only [hw, Bool.false_eq_true, if_false] at e h3
      rw [if_neg (by omega)] at e
      split_ifs at e
      unfold destroyAndFree at e
      rw [if_neg h2] at e
      cases e
    · simp only [hw, if_true] at e h3
      rw [if_neg (by omega)] at e
      split_ifs at e
      unfold destroyAndFree at e
      rw [if_neg h2] at e
      cases e
  | clear i =>
    refine ⟨i, rfl, ?_⟩
    simpa [step] using e
  | destroy i =>
    exfalso
    have hds : dyings (.destroy i :: ts) = i :: dyings ts := rfl
    obtain ⟨o, ho, s0, w0⟩ := inv.running i (by rw [hds]; simp)
    have := (inv.phase _ _ ho).2.2 s0 w0
    rw [if_pos (by rw [hds]; simp)] at this
    simp only [step, stored_of ho (by rw [this]; decide)] at e
    cases e

/-- No object has a weak member; the `clear()`s running are of objects a variable watches. -/
structure NoWeak (roots : List Ref) (h : Heap) (ts : List Task) : Prop where
  fields : ∀ o ∈ h.objs, ∀ r ∈ o.fields, r.weak = false
  tail : ∀ r ∈ cuts ts.tail, r.weak = false
  clears : ∀ i, Task.clear i ∈ ts → (⟨true, i⟩ : Ref) ∈ roots

theorem noWeak_put {roots : List Ref} {h : Heap} {ts : List Task} (nw : NoWeak roots h ts) {i : Nat} {o : Obj}
    (hf : ∀ r ∈ o.fields, r.weak = false) : ∀ o' ∈ (h.put i o).objs, ∀ r ∈ o'.fields, r.weak = false := by
  intro o' ho' r hr
  rcases List.mem_or_eq_of_mem_set ho' with h1 | h1
  · exact nw.fields o' h1 r hr
  · subst h1; exact hf r hr

theorem noWeak_step {roots : List Ref} {h : Heap} {t : Task} {ts : List Task} (inv : Inv roots h (t :: ts))
    (nw : NoWeak roots h (t :: ts)) : ∃ p, step h t ts = some p ∧ NoWeak roots p.1 p.2 := by
  have hsome : ∃ p, step h t ts = some p := by
    cases e : step h t ts with
    | some p => exact ⟨p, rfl⟩
    | none =>
      exfalso
      obtain ⟨i, rfl, hs⟩ := step_none inv e
      have hm := nw.clears i (by simp)
      have hmem : (⟨true, i⟩ : Ref) ∈ refs roots h (.clear i :: ts) := by unfold refs; simp [hm]
      have hl := inv.valid _ hmem
      dsimp only at hl
      obtain ⟨o, ho⟩ : ∃ o, h.objs[i]? = some o := ⟨_, List.getElem?_eq_getElem hl⟩
      have hw := inv.weak _ _ ho
      have hp : 0 < (refs roots h (.clear i :: ts)).count ⟨true, i⟩ := List.count_pos_iff.2 hmem
      obtain ⟨p1, p2, p3⟩ := inv.phase _ _ ho
      have : o.phase ≠ .freed := by
        by_cases h0 : 0 < o.strong
        · rw [p1 h0]; decide
        · rw [p2 (by omega) (by omega)]; decide
      rw [stored_of ho this] at hs
      cases hs
  obtain ⟨p, e⟩ := hsome
  refine ⟨p, e, ?_⟩
  have tailcut : ∀ r, r ∈ cuts ts → r.weak = false := fun r hr => nw.tail r hr
  have tail2 : ∀ r, r ∈ cuts ts.tail → r.weak = false := by
    intro r hr
    apply tailcut
    unfold cuts at *
    exact List.mem_filterMap.2 (by
      obtain ⟨a, h1, h2⟩ := List.mem_filterMap.1 hr
      exact ⟨a, List.mem_of_mem_tail h1, h2⟩)
  cases t with
  | cut r =>
    obtain ⟨o, h1, hpos, s, w, hs, hw, hcase⟩ := cutRef_cases e
    obtain ⟨ho, hnf⟩ := stored_some h1
    have hof : ∀ r ∈ o.fields, r.weak = false := nw.fields o (List.mem_of_getElem? ho)
    rcases hcase with ⟨_, rfl⟩ | ⟨hrw, hs0, hw0, rfl⟩ | ⟨_, _, _, rfl⟩
    · exact ⟨noWeak_put nw hof, tail2, fun i hi => nw.clears i (List.mem_cons_of_mem _ hi)⟩
    · refine ⟨noWeak_put (o := { o with strong := 0, weakNum := w, phase := .cleared }) nw hof, tailcut, fun i hi => ?_⟩
      rcases List.mem_cons.1 hi with hi | hi
      · injection hi with hi; subst hi
        have := inv.weak _ _ ho
        have hwe : w = o.weakNum := by simpa [hrw] using hw
        have hm : (⟨true, r.to⟩ : Ref) ∈ refs roots h (.cut r :: ts) := List.count_pos_iff.1 (by omega)
        unfold refs at hm
        rcases List.mem_append.1 hm with hm | hm
        · exact hm
        · exfalso
          rcases List.mem_append.1 hm with hm | hm
          · obtain ⟨o', h2, h3⟩ := List.mem_flatMap.1 hm
            have := nw.fields o' h2 _ h3
            cases this
          · have hcc : cuts (.cut r :: ts) = r :: cuts ts := rfl
            rw [hcc] at hm
            rcases List.mem_cons.1 hm with hm | hm
            · rw [← hm] at hrw; cases hrw
            · have := tailcut _ hm; cases this
      · exact nw.clears i (List.mem_cons_of_mem _ hi)
    · refine ⟨noWeak_put (o := { o with strong := 0, weakNum := 0, phase := .dying }) nw hof, tailcut, fun i hi => ?_⟩
      rcases List.mem_cons.1 hi with hi | hi
      · cases hi
      · exact nw.clears i (List.mem_cons_of_mem _ hi)
  | clear i =>
    simp only [step, Option.map_eq_some_iff] at e
    obtain ⟨o, h1, e⟩ := e
    obtain ⟨ho, h3⟩ := stored_some h1
    have hof : ∀ r ∈ o.fields, r.weak = false := nw.fields o (List.mem_of_getElem? ho)
    cases hc : o.fields with
    | nil =>
      rw [hc] at e; subst e
      exact ⟨nw.fields, tail2, fun i hi => nw.clears i (List.mem_cons_of_mem _ hi)⟩
    | cons r rs =>
      rw [hc] at e hof; subst e
      refine ⟨noWeak_put nw fun r' hr' => hof r' (List.mem_cons_of_mem _ hr'), tailcut, fun j hj => ?_⟩
      rcases List.mem_cons.1 hj with hj | hj
      · cases hj
      · exact nw.clears j hj
  | destroy i =>
    simp only [step, Option.map_eq_some_iff] at e
    obtain ⟨o, h1, e⟩ := e
    obtain ⟨ho, h3⟩ := stored_some h1
    have hof : ∀ r ∈ o.fields, r.weak = false := nw.fields o (List.mem_of_getElem? ho)
    cases hc : o.fields with
    | nil =>
      rw [hc] at e; subst e
      exact ⟨noWeak_put (o := { o with phase := .freed, fields := [] }) nw (by simp), tail2, fun i hi => nw.clears i (List.mem_cons_of_mem _ hi)⟩
    | cons r rs =>
      rw [hc] at e hof; subst e
      refine ⟨noWeak_put nw fun r' hr' => hof r' (List.mem_cons_of_mem _ hr'), tailcut, fun j hj => ?_⟩
      rcases List.mem_cons.1 hj with hj | hj
      · cases hj
      · exact nw.clears j hj

theorem noWeak_work {roots : List Ref} : ∀ n {h : Heap} {ts : List Task}, weight h ts = n → Inv roots h ts → NoWeak roots h ts →
    ∃ h', work h ts = some h' ∧ NoWeak roots h' [] := by
  intro n
  induction n using Nat.strong_induction_on with
  | _ n ih =>
    intro h ts hn inv nw
    cases ts with
    | nil => exact ⟨h, work_nil h, nw⟩
    | cons t ts =>
      obtain ⟨p, e1, nw'⟩ := noWeak_step inv nw
      obtain ⟨h', e2, nw''⟩ := ih _ (by rw [← hn]; exact step_weight e1) rfl (inv_step inv e1) nw'
      exact ⟨h', by rw [work_cons, e1]; exact e2, nw''⟩

/-! ### operations -/

/-- The pointers held by variables. -/
def rootsOf (vars : List (Option Ref)) : List Ref := vars.filterMap id

theorem rootsOf_append (vars : List (Option Ref)) (r r' : Ref) :
    (rootsOf (vars ++ [some r])).count r' = (rootsOf vars).count r' + if r = r' then 1 else 0 := by
  unfold rootsOf
  simp [List.filterMap_append, List.count_cons]

theorem rootsOf_set {vars : List (Option Ref)} {x : Nat} {old : Ref} (h : vars[x]? = some (some old)) (v : Option Ref) (r' : Ref) :
    (rootsOf (vars.set x v)).count r' + (if old = r' then 1 else 0) = (rootsOf vars).count r' + v.toList.count r' := by
  unfold rootsOf
  induction vars generalizing x with
  | nil => cases h
  | cons a l ih =>
    cases x with
    | zero =>
      simp at h; subst h
      cases v <;> simp [List.count_cons, List.filterMap_cons]
      omega
    | succ x =>
      rw [List.getElem?_cons_succ] at h
      have := ih h
      cases a <;> simp [List.count_cons, List.filterMap_cons] at this ⊢ <;> omega

theorem var_get {s : State} {x : Nat} {r : Ref} (h : s.var x = some r) : s.vars[x]? = some (some r) := by
  unfold State.var at h
  rw [Option.bind_eq_some_iff] at h
  obtain ⟨a, h1, h2⟩ := h
  have : a = some r := h2
  rw [h1, this]

theorem var_mem {s : State} {x : Nat} {r : Ref} (h : s.var x = some r) : r ∈ rootsOf s.vars := by
  unfold rootsOf
  rw [List.mem_filterMap]
  exact ⟨some r, List.mem_of_getElem? (var_get h), rfl⟩

/-- A pointer that exists points to an object that is stored; a strong one to one in use. -/
theorem inv_target {roots : List Ref} {h : Heap} {ts : List Task} (inv : Inv roots h ts) {r : Ref} (hr : r ∈ refs roots h ts) :
    ∃ o, h.objs[r.to]? = some o ∧ o.phase ≠ .freed ∧ (r.weak = false → 0 < o.strong) ∧ (0 < o.strong ∨ 0 < o.weakNum) := by
  have hl := inv.valid r hr
  obtain ⟨o, ho⟩ : ∃ o, h.objs[r.to]? = some o := ⟨_, List.getElem?_eq_getElem hl⟩
  have hc : 0 < (refs roots h ts).count r := List.count_pos_iff.2 hr
  have hs := inv.strong _ _ ho
  have hw := inv.weak _ _ ho
  obtain ⟨p1, p2, p3⟩ := inv.phase _ _ ho
  have h1 : r.weak = false → 0 < o.strong := by
    intro h; obtain ⟨b, i⟩ := r; dsimp only at *; subst h; omega
  have h2 : 0 < o.strong ∨ 0 < o.weakNum := by
    obtain ⟨b, i⟩ := r
    cases b
    · exact Or.inl (h1 rfl)
    · right; dsimp only at *; omega
  refine ⟨o, ho, ?_, h1, h2⟩
  by_cases h0 : 0 < o.strong
  · rw [p1 h0]; decide
  · rw [p2 (by omega) (by omega)]; decide

/-- The null object is in use. -/
theorem inv_null {roots : List Ref} {h : Heap} {ts : List Task} (inv : Inv roots h ts) (hl : 0 < h.objs.length) :
    ∃ o, h.objs[0]? = some o ∧ o.phase = .alive ∧ 0 < o.strong := by
  obtain ⟨o, ho⟩ : ∃ o, h.objs[0]? = some o := ⟨_, List.getElem?_eq_getElem hl⟩
  have hs := inv.strong _ _ ho
  rw [if_pos rfl] at hs
  exact ⟨o, ho, (inv.phase _ _ ho).1 (by omega), by omega⟩

/-- Another pointer, counted. -/
theorem inv_addRef {roots : List Ref} {h : Heap} (inv : Inv roots h []) {r : Ref} {o : Obj} (ho : h.objs[r.to]? = some o)
    (hok : 0 < o.strong ∨ (r.weak = true ∧ 0 < o.weakNum)) :
    ∃ h', addRef h r = some h' ∧ Inv (r :: roots) h' [] ∧ h'.objs.length = h.objs.length ∧
      (∀ (i : Nat) (o' : Obj), h'.objs[i]? = some o' → ∃ o : Obj, h.objs[i]? = some o ∧ o'.fields = o.fields ∧ o.strong ≤ o'.strong ∧ o.weakNum ≤ o'.weakNum ∧
        o'.phase = o.phase) := by
  obtain ⟨p1, p2, p3⟩ := inv.phase _ _ ho
  have hnf : o.phase ≠ .freed := by
    by_cases h0 : 0 < o.strong
    · rw [p1 h0]; decide
    · rw [p2 (by omega) (by omega)]; decide
  have hlt := lt_of_get ho
  obtain ⟨o1, ho1⟩ : ∃ o1, o1 = (if r.weak then { o with weakNum := o.weakNum + 1 } else { o with strong := o.strong + 1 }) := ⟨_, rfl⟩
  have hf1 : o1.fields = o.fields := by rw [ho1]; split <;> rfl
  have hp1 : o1.phase = o.phase := by rw [ho1]; split <;> rfl
  have hs1 : o1.strong = o.strong + if r.weak then 0 else 1 := by rw [ho1]; split <;> rfl
  have hw1 : o1.weakNum = o.weakNum + if r.weak then 1 else 0 := by rw [ho1]; split <;> rfl
  have hadd : addRef h r = some (h.put r.to o1) := by
    unfold addRef
    rw [stored_of ho hnf, ho1]; rfl
  have hr : refs (r :: roots) (h.put r.to o1) [] = r :: refs roots h [] := by
    have : refs roots (h.put r.to o1) [] = refs roots h [] := refs_put_same ho hf1
    rw [← this]; rfl
  have hsame : (0 < o1.strong ↔ 0 < o.strong) ∧ ((0 < o1.strong ∨ 0 < o1.weakNum) ↔ (0 < o.strong ∨ 0 < o.weakNum)) := by
    rw [hs1, hw1]
    cases hb : r.weak <;> simp only [hb, Bool.false_eq_true, if_false, if_true, false_and, true_and, or_false] at * <;> omega
  have hg : ∀ (j : Nat) (o' : Obj), (h.put r.to o1).objs[j]? = some o' → (r.to = j ∧ o' = o1) ∨ (r.to ≠ j ∧ h.objs[j]? = some o') := by
    intro j o' hj
    rw [put_get] at hj
    split_ifs at hj with h1
    · injection hj with hj; exact Or.inl ⟨h1, hj.symm⟩
    · exact Or.inr ⟨h1, hj⟩
  refine ⟨_, hadd, ⟨?_, ?_, ?_, ?_, inv.nodup, ?_, ?_, ?_, ?_⟩, by simp [Heap.put], ?_⟩
  · intro j o' hj
    rw [hr, List.count_cons]
    rcases hg j o' hj with ⟨rfl, rfl⟩ | ⟨h1, h2⟩
    · rw [hs1, inv.strong _ _ ho]
      obtain ⟨b, i⟩ := r
      cases b <;> simp
      omega
    · rw [inv.strong _ _ h2, if_neg (c := (r == (⟨false, j⟩ : Ref)) = true), Nat.add_zero]
      simp only [beq_iff_eq]; intro hh; apply h1; rw [hh]
  · intro j o' hj
    rw [hr, List.count_cons]
    rcases hg j o' hj with ⟨rfl, rfl⟩ | ⟨h1, h2⟩
    · rw [hw1, inv.weak _ _ ho]
      obtain ⟨b, i⟩ := r
      cases b <;> simp
    · rw [inv.weak _ _ h2, if_neg (c := (r == (⟨true, j⟩ : Ref)) = true), Nat.add_zero]
      simp only [beq_iff_eq]; intro hh; apply h1; rw [hh]
  · intro r' hr'
    rw [hr] at hr'
    simp only [Heap.put, List.length_set]
    rcases List.mem_cons.1 hr' with rfl | h1
    · exact hlt
    · exact inv.valid _ h1
  · intro j o' hj
    rcases hg j o' hj with ⟨rfl, rfl⟩ | ⟨h1, h2⟩
    · refine ⟨fun h2 => by rw [hp1]; exact p1 (hsame.1.1 h2), fun h2 h3 => ?_, fun h2 h3 => ?_⟩
      · rw [hp1]; have := hsame.1; have := hsame.2; exact p2 (by omega) (by omega)
      · have := hsame.2; omega
    · exact inv.phase _ _ h2
  · intro j hj; cases hj
  · intro j o' hj
    rcases hg j o' hj with ⟨rfl, rfl⟩ | ⟨h1, h2⟩
    · simp only [hsame.1]; exact inv.ended _ _ ho
    · exact inv.ended _ _ h2
  · intro j o' hj
    rcases hg j o' hj with ⟨rfl, rfl⟩ | ⟨h1, h2⟩
    · simp only [hsame.2]; exact inv.destroyed _ _ ho
    · exact inv.destroyed _ _ h2
  · intro j hj
    have := inv.made j hj
    simpa [Heap.put] using this
  · intro j o' hj
    rcases hg j o' hj with ⟨rfl, rfl⟩ | ⟨h1, h2⟩
    · exact ⟨o, ho, hf1, by omega, by omega, hp1⟩
    · exact ⟨o', h2, rfl, Nat.le_refl _, Nat.le_refl _, rfl⟩

/-- Members are the same in two heaps. -/
def SameFields (h h' : Heap) : Prop :=
  h'.objs.length = h.objs.length ∧ ∀ (i : Nat) (o' : Obj), h'.objs[i]? = some o' → ∃ o : Obj, h.objs[i]? = some o ∧ o'.fields = o.fields ∧
    o'.phase = o.phase

theorem sameFields_refl (h : Heap) : SameFields h h := ⟨rfl, fun _ o' h => ⟨o', h, rfl, rfl⟩⟩

theorem sameFields_trans {a b c : Heap} (h1 : SameFields a b) (h2 : SameFields b c) : SameFields a c := by
  refine ⟨h2.1.trans h1.1, fun i o' h => ?_⟩
  obtain ⟨o, h3, h4, h5⟩ := h2.2 i o' h
  obtain ⟨o'', h6, h7, h8⟩ := h1.2 i o h3
  exact ⟨o'', h6, h4.trans h7, h5.trans h8⟩

/-- A copy of an existing pointer. -/
theorem inv_takeRef {roots : List Ref} {h : Heap} (inv : Inv roots h []) (hl : 0 < h.objs.length) {r : Ref} (hr : r ∈ refs roots h [])
    (weak : Bool) : ∃ h' r', takeRef h weak r = some (h', r') ∧ Inv (r' :: roots) h' [] ∧ SameFields h h' ∧ r'.weak = weak := by
  obtain ⟨o, ho, hnf, h1, h2⟩ := inv_target inv hr
  unfold takeRef copyRef
  rw [stored_of ho hnf, Option.map_some, Option.bind_some]
  by_cases hc : weak = false ∧ o.strong = 0
  · rw [if_pos hc]
    obtain ⟨o0, ho0, _, hp⟩ := inv_null inv hl
    obtain ⟨h', e1, e2, e3, e4⟩ := inv_addRef (r := ⟨false, 0⟩) inv ho0 (Or.inl hp)
    refine ⟨h', _, by rw [e1]; rfl, e2, ⟨e3, fun i o' hi => ?_⟩, hc.1.symm⟩
    obtain ⟨o, a, b, _, _, c⟩ := e4 i o' hi
    exact ⟨o, a, b, c⟩
  · rw [if_neg hc]
    obtain ⟨h', e1, e2, e3, e4⟩ := inv_addRef (r := ⟨weak, r.to⟩) inv ho (by
      cases weak
      · left; simp at hc; omega
      · simp only [true_and]; exact h2)
    refine ⟨h', _, by rw [e1]; rfl, e2, ⟨e3, fun i o' hi => ?_⟩, rfl⟩
    obtain ⟨o, a, b, _, _, c⟩ := e4 i o' hi
    exact ⟨o, a, b, c⟩

theorem mem_refs_mono {roots roots' : List Ref} (hsub : ∀ r ∈ roots, r ∈ roots') {h : Heap} {r : Ref} (hr : r ∈ roots) :
    r ∈ refs roots' h [] := by
  unfold refs
  exact List.mem_append.2 (Or.inl (hsub r hr))

theorem inv_takeAll {s : State} : ∀ (xs : List Nat) {roots : List Ref} {h : Heap}, Inv roots h [] → 0 < h.objs.length →
    (∀ r ∈ rootsOf s.vars, r ∈ roots) → (∀ x ∈ xs, ∃ r, s.var x = some r) →
    ∃ h' rs, takeAll s h xs = some (h', rs) ∧ Inv (rs ++ roots) h' [] ∧ SameFields h h' ∧
      ((∀ x ∈ xs, ∀ r, s.var x = some r → r.weak = false) → ∀ r ∈ rs, r.weak = false) := by
  intro xs
  induction xs with
  | nil => intro roots h inv hl hsub hx; exact ⟨h, [], rfl, inv, sameFields_refl h, by simp⟩
  | cons x xs ih =>
    intro roots h inv hl hsub hx
    obtain ⟨r, hr⟩ := hx x (by simp)
    obtain ⟨h1, r', e1, e2, e3, e4⟩ := inv_takeRef inv hl (mem_refs_mono hsub (var_mem hr)) r.weak
    obtain ⟨h2, rs, f1, f2, f3, f4⟩ := ih e2 (by rw [e3.1]; exact hl) (fun r hr => List.mem_cons_of_mem _ (hsub r hr))
      (fun y hy => hx y (by simp [hy]))
    refine ⟨h2, r' :: rs, ?_, ?_, sameFields_trans e3 f3, ?_⟩
    · simp only [takeAll, hr, Option.bind_some, e1, f1, Option.map_some]
    · refine inv_counts f2 (fun q => ?_) rfl
      unfold refs
      simp only [List.count_append, List.count_cons, List.cons_append]
      omega
    · intro hw q hq
      rcases List.mem_cons.1 hq with rfl | hq
      · rw [e4]; exact hw x (by simp) r hr
      · exact f4 (fun y hy => hw y (by simp [hy])) q hq

/-- A new object, with its first pointer. -/
theorem inv_new {roots rs : List Ref} {h : Heap} (inv : Inv (rs ++ roots) h []) (hl : 0 < h.objs.length) :
    Inv (⟨false, h.objs.length⟩ :: roots) { h with objs := h.objs ++ [⟨.alive, 1, 0, rs⟩] } [] := by
  have hr : ∀ q, (refs (⟨false, h.objs.length⟩ :: roots) { h with objs := h.objs ++ [⟨.alive, 1, 0, rs⟩] } []).count q =
      (refs (rs ++ roots) h []).count q + if (⟨false, h.objs.length⟩ : Ref) = q then 1 else 0 := by
    intro q
    unfold refs
    simp only [List.count_append, List.count_cons, List.cons_append, List.flatMap_append, List.flatMap_cons, List.flatMap_nil,
      List.append_nil, beq_iff_eq]
    omega
  have hnone : ∀ b, (refs (rs ++ roots) h []).count ⟨b, h.objs.length⟩ = 0 := by
    intro b
    rw [List.count_eq_zero]
    intro hm
    have := inv.valid _ hm
    dsimp only at this
    omega
  have hg : ∀ (j : Nat) (o' : Obj), (h.objs ++ [⟨.alive, 1, 0, rs⟩])[j]? = some o' →
      (j < h.objs.length ∧ h.objs[j]? = some o') ∨ (j = h.objs.length ∧ o' = ⟨.alive, 1, 0, rs⟩) := by
    intro j o' hj
    by_cases h1 : j < h.objs.length
    · rw [List.getElem?_append_left h1] at hj; exact Or.inl ⟨h1, hj⟩
    · rw [List.getElem?_append_right (by omega)] at hj
      by_cases h2 : j = h.objs.length
      · subst h2; simp at hj; exact Or.inr ⟨rfl, hj.symm⟩
      · rw [List.getElem?_eq_none (by simp; omega)] at hj; cases hj
  refine ⟨?_, ?_, ?_, ?_, List.nodup_nil, ?_, ?_, ?_, ?_⟩
  · intro j o' hj
    rw [hr]
    rcases hg j o' hj with ⟨h1, h2⟩ | ⟨rfl, rfl⟩
    · rw [inv.strong _ _ h2, if_neg (c := (⟨false, h.objs.length⟩ : Ref) = ⟨false, j⟩)
        (by simp only [Ref.mk.injEq, true_and]; omega), Nat.add_zero]
    · rw [hnone, if_pos rfl, if_neg (by omega)]
  · intro j o' hj
    rw [hr]
    rcases hg j o' hj with ⟨h1, h2⟩ | ⟨rfl, rfl⟩
    · rw [inv.weak _ _ h2, if_neg (by simp)]; omega
    · rw [hnone, if_neg (by simp)]
  · intro q hq
    simp only [List.length_append, List.length_cons, List.length_nil]
    have hc := List.count_pos_iff.2 hq
    rw [hr] at hc
    split_ifs at hc with h1
    · rw [← h1]; dsimp only; omega
    · have := inv.valid q (List.count_pos_iff.1 (by omega)); omega
  · intro j o' hj
    rcases hg j o' hj with ⟨h1, h2⟩ | ⟨rfl, rfl⟩
    · exact inv.phase _ _ h2
    · exact ⟨fun _ => rfl, fun h1 => (by cases h1), fun h1 => (by cases h1)⟩
  · intro j hj; cases hj
  · intro j o' hj
    rcases hg j o' hj with ⟨h1, h2⟩ | ⟨rfl, rfl⟩
    · exact inv.ended _ _ h2
    · dsimp only
      rw [List.count_eq_zero.2 (fun hm => by have := inv.made _ (Or.inl hm); omega)]; rfl
  · intro j o' hj
    rcases hg j o' hj with ⟨h1, h2⟩ | ⟨rfl, rfl⟩
    · exact inv.destroyed _ _ h2
    · dsimp only
      rw [List.count_eq_zero.2 (fun hm => by have := inv.made _ (Or.inr hm); omega)]; rfl
  · intro j hj
    have := inv.made j hj
    simp only [List.length_append, List.length_cons, List.length_nil]; omega

theorem addRef_new (h : Heap) (rs : List Ref) : addRef { h with objs := h.objs ++ [⟨.alive, 0, 0, rs⟩] } ⟨false, h.objs.length⟩ =
    some { h with objs := h.objs ++ [⟨.alive, 1, 0, rs⟩] } := by
  unfold addRef Heap.stored
  simp [Heap.put]

end ELC.Ptr
