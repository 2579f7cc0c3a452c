import Verif.Cow.Spec
import Mathlib.Tactic.ByContra
import Mathlib.Tactic.SplitIfs
/-! Lemmas on shared values. -/
namespace ELC.Cow

variable {V : Type}

/-- The invariant: the counts, with some pointers not (yet, or any more) in a handle. -/
structure Inv (cells : List (Cell V)) (handles : List (Option Nat)) (extra : List Nat) : Prop where
  refs : ∀ (c : Nat) (o : Cell V), cells[c]? = some o → o.refs = handles.count (some c) + extra.count c
  lt : ∀ c, some c ∈ handles → c < cells.length
  ltx : ∀ c ∈ extra, c < cells.length

def val (cells : List (Cell V)) (c : Nat) : Option V := (cells[c]?).map Cell.value

theorem count_set_opt {l : List (Option Nat)} {x : Nat} {a : Option Nat} (h : l[x]? = some a) (b q : Option Nat) :
    (l.set x b).count q + (if a = q then 1 else 0) = l.count q + (if b = q then 1 else 0) := by
  induction l generalizing x with
  | nil => cases h
  | cons y l ih =>
    cases x with
    | zero => simp at h; subst h; simp [List.count_cons]; omega
    | succ x =>
      rw [List.getElem?_cons_succ] at h
      have := ih h
      simp [List.count_cons]; omega

theorem handle_get {s : State V} {x c : Nat} (h : handle s x = some c) : s.handles[x]? = some (some c) := by
  unfold handle at h
  cases hs : s.handles[x]? with
  | none => rw [hs] at h; cases h
  | some a => rw [hs] at h; simp at h; rw [h]

theorem handle_mem {s : State V} {x c : Nat} (h : handle s x = some c) : some c ∈ s.handles := List.mem_of_getElem? (handle_get h)

theorem get_lt {α : Type} {l : List α} {i : Nat} {a : α} (h : l[i]? = some a) : i < l.length := (List.getElem?_eq_some_iff.1 h).1

/-- Values unchanged, length unchanged. -/
def SameVals (cells cells' : List (Cell V)) : Prop := cells'.length = cells.length ∧ ∀ c, val cells' c = val cells c

theorem addRef_ok {cells : List (Cell V)} {handles : List (Option Nat)} {extra : List Nat} (inv : Inv cells handles extra) {c : Nat}
    (hc : c < cells.length) : ∃ cells', addRef cells (some c) = some cells' ∧ Inv cells' handles (c :: extra) ∧ SameVals cells cells' := by
  obtain ⟨o, ho⟩ : ∃ o, cells[c]? = some o := ⟨_, List.getElem?_eq_getElem hc⟩
  refine ⟨cells.set c { o with refs := o.refs + 1 }, by simp [addRef, ho], ⟨?_, ?_, ?_⟩, by simp, ?_⟩
  · intro d o' hd
    rw [List.getElem?_set] at hd
    split_ifs at hd with h1 h2
    · subst h1
      injection hd with hd; subst hd
      have := inv.refs c o ho
      simp; omega
    · have := inv.refs d o' hd
      rw [List.count_cons_of_ne (by simpa using h1)]; exact this
  · intro d hd; simp; exact inv.lt d hd
  · intro d hd
    simp only [List.length_set]
    rcases List.mem_cons.1 hd with rfl | h
    · exact hc
    · exact inv.ltx d h
  · intro d
    unfold val
    rw [List.getElem?_set]
    split_ifs with h1
    · subst h1; rw [ho]; rfl
    · rfl

theorem cell_pos {cells : List (Cell V)} {c : Nat} {o : Cell V} (h : cells[c]? = some o) (hp : 0 < o.refs) : cell cells c = some o := by
  unfold cell; rw [h]; simp; omega

theorem cell_get {cells : List (Cell V)} {c : Nat} {o : Cell V} (h : cell cells c = some o) : cells[c]? = some o ∧ 0 < o.refs := by
  unfold cell at h
  cases hc : cells[c]? with
  | none => rw [hc] at h; cases h
  | some x =>
    rw [hc] at h; simp at h
    obtain ⟨h1, rfl⟩ := h
    exact ⟨rfl, by omega⟩

theorem cutRef_ok {cells : List (Cell V)} {handles : List (Option Nat)} {extra : List Nat} {c : Nat} (inv : Inv cells handles (c :: extra)) :
    ∃ cells', cutRef cells c = some cells' ∧ Inv cells' handles extra ∧ SameVals cells cells' := by
  obtain ⟨o, ho⟩ : ∃ o, cells[c]? = some o := ⟨_, List.getElem?_eq_getElem (inv.ltx c (List.mem_cons_self ..))⟩
  have hr := inv.refs c o ho
  simp only [List.count_cons_self] at hr
  refine ⟨cells.set c { o with refs := o.refs - 1 }, by simp [cutRef, cell_pos ho (by omega)], ⟨?_, ?_, ?_⟩, by simp, ?_⟩
  · intro d o' hd
    rw [List.getElem?_set] at hd
    split_ifs at hd with h1 h2
    · subst h1
      injection hd with hd; subst hd
      dsimp only; omega
    · have := inv.refs d o' hd
      rw [List.count_cons_of_ne (by simpa using h1)] at this; exact this
  · intro d hd; simp; exact inv.lt d hd
  · intro d hd; simp; exact inv.ltx d (List.mem_cons_of_mem _ hd)
  · intro d
    unfold val
    rw [List.getElem?_set]
    by_cases h1 : c = d
    · subst h1; rw [if_pos rfl, if_pos (get_lt ho), ho]; rfl
    · rw [if_neg h1]

theorem inv_set {cells : List (Cell V)} {handles : List (Option Nat)} {extra : List Nat} {x c old : Nat}
    (inv : Inv cells handles (c :: extra)) (h : handles[x]? = some (some old)) :
    Inv cells (handles.set x (some c)) (old :: extra) := by
  refine ⟨?_, ?_, ?_⟩
  · intro d o hd
    have h1 := inv.refs d o hd
    have h2 := count_set_opt h (some c) (some d)
    simp only [List.count_cons, Option.some.injEq, beq_iff_eq] at h1 h2 ⊢
    omega
  · intro d hd
    rcases List.mem_or_eq_of_mem_set hd with h1 | h1
    · exact inv.lt d h1
    · injection h1 with h1; subst h1; exact inv.ltx d (List.mem_cons_self ..)
  · intro d hd
    rcases List.mem_cons.1 hd with rfl | h1
    · exact inv.lt d (List.mem_of_getElem? h)
    · exact inv.ltx d (List.mem_cons_of_mem _ h1)

theorem reset_ok {s : State V} (inv : Inv s.cells s.handles []) {x old c : Nat} (hx : handle s x = some old) (hc : c < s.cells.length) :
    ∃ cells', reset s x c = some { s with cells := cells', handles := s.handles.set x (some c) } ∧
      Inv cells' (s.handles.set x (some c)) [] ∧ SameVals s.cells cells' := by
  obtain ⟨c1, e1, i1, v1⟩ := addRef_ok inv hc
  have i1' := inv_set i1 (handle_get hx)
  obtain ⟨c2, e2, i2, v2⟩ := cutRef_ok i1'
  refine ⟨c2, ?_, i2, by rw [v2.1, v1.1], fun d => by rw [v2.2, v1.2]⟩
  -- the order of taking the old pointer out does not matter to the counts
  simp only [reset, hx, Option.bind_some, e1, e2, Option.map_some]

theorem reads_eq {s : State V} (inv : Inv s.cells s.handles []) :
    Spec.reads s = s.handles.map fun h => h.bind (val s.cells) := by
  unfold Spec.reads
  apply List.map_congr_left
  intro h hh
  cases h with
  | none => rfl
  | some c =>
    obtain ⟨o, ho⟩ : ∃ o, s.cells[c]? = some o := ⟨_, List.getElem?_eq_getElem (inv.lt c hh)⟩
    have := inv.refs c o ho
    have hp : 0 < s.handles.count (some c) := List.count_pos_iff.2 hh
    simp only [Option.bind_some, cell_pos ho (by omega), val, ho]

theorem handle_val {s : State V} (inv : Inv s.cells s.handles []) {x c : Nat} (h : handle s x = some c) :
    ∃ o, s.cells[c]? = some o ∧ cell s.cells c = some o := by
  obtain ⟨o, ho⟩ : ∃ o, s.cells[c]? = some o := ⟨_, List.getElem?_eq_getElem (inv.lt c (handle_mem h))⟩
  have := inv.refs c o ho
  have hp : 0 < s.handles.count (some c) := List.count_pos_iff.2 (handle_mem h)
  exact ⟨o, ho, cell_pos ho (by omega)⟩

/-- The state shows the values, and the invariant holds. -/
structure Rel (s : State V) (p : Spec.Plain V) : Prop where
  inv : Inv s.cells s.handles []
  values : s.handles.map (fun h => h.bind (val s.cells)) = p.values
  out : s.out = p.out

theorem rel_handle {s : State V} {p : Spec.Plain V} (r : Rel s p) {x : Nat} {v : V} (h : Spec.value p x = some v) :
    ∃ c o, handle s x = some c ∧ s.cells[c]? = some o ∧ cell s.cells c = some o ∧ o.value = v := by
  unfold Spec.value at h
  rw [← r.values, List.getElem?_map] at h
  cases hs : s.handles[x]? with
  | none => rw [hs] at h; cases h
  | some a =>
    rw [hs] at h
    cases a with
    | none => cases h
    | some c =>
      have hh : handle s x = some c := by unfold handle; rw [hs]; rfl
      obtain ⟨o, ho, hc⟩ := handle_val r.inv hh
      refine ⟨c, o, hh, ho, hc, ?_⟩
      simpa [val, ho] using h

/-- Changing one handle to point to storage with value `v`. -/
theorem map_set_val {handles : List (Option Nat)} {cells cells' : List (Cell V)} (hv : ∀ c, some c ∈ handles → val cells' c = val cells c)
    (x : Nat) (h : Option Nat) :
    (handles.set x h).map (fun h => h.bind (val cells')) = (handles.map fun h => h.bind (val cells)).set x (h.bind (val cells')) := by
  rw [List.map_set]
  congr 1
  apply List.map_congr_left
  intro a ha
  cases a with
  | none => rfl
  | some c => exact hv c ha

theorem set_same {α : Type} {l : List α} {x : Nat} {a : α} (h : l[x]? = some a) : l.set x a = l := by
  apply List.ext_getElem?
  intro i
  by_cases hi : x = i
  · subst hi; rw [List.getElem?_set_self (get_lt h), h]
  · rw [List.getElem?_set_ne hi]

theorem rel_copyCheck {s : State V} {p : Spec.Plain V} (r : Rel s p) {x : Nat} {v : V} (h : Spec.value p x = some v) :
    ∃ s' c o, copyCheck s x = some s' ∧ Rel s' p ∧ handle s' x = some c ∧ s'.cells[c]? = some o ∧ o.refs = 1 ∧ o.value = v ∧
      cell s'.cells c = some o ∧ s'.kept = s.kept ∧ s'.handles.length = s.handles.length ∧
      ∀ y d, y ≠ x → handle s y = some d → s.handles.count (some d) = 1 → handle s' y = some d ∧ s'.handles.count (some d) = 1 := by
  obtain ⟨c, o, h1, h2, h3, h4⟩ := rel_handle r h
  by_cases hu : o.refs = 1
  · exact ⟨s, c, o, by simp [copyCheck, h1, h3, hu], r, h1, h2, hu, h4, h3, rfl, rfl, fun y d _ hd hd1 => ⟨hd, hd1⟩⟩
  · have inv1 : Inv (s.cells ++ [⟨0, o.value⟩]) s.handles [] := by
      refine ⟨?_, fun d hd => ?_, fun d hd => by cases hd⟩
      · intro d o' hd
        by_cases hlt : d < s.cells.length
        · rw [List.getElem?_append_left hlt] at hd; exact r.inv.refs d o' hd
        · have hlt' := get_lt hd
          simp at hlt'
          have : d = s.cells.length := by omega
          subst this
          rw [List.getElem?_append_right (by omega)] at hd
          simp at hd; subst hd
          have : s.handles.count (some s.cells.length) = 0 := by
            rw [List.count_eq_zero]; intro hm; exact absurd (r.inv.lt _ hm) (by omega)
          simp [this]
      · simp; have := r.inv.lt d hd; omega
    obtain ⟨cs, e1, i1, v1⟩ := reset_ok (s := { s with cells := s.cells ++ [⟨0, o.value⟩] }) inv1 (x := x) (old := c)
      (c := s.cells.length) h1 (by simp)
    dsimp only at e1 i1 v1
    have hxlt : x < s.handles.length := get_lt (handle_get h1)
    have hlen : s.cells.length < cs.length := by rw [v1.1]; simp
    obtain ⟨on, hon⟩ : ∃ on, cs[s.cells.length]? = some on := ⟨_, List.getElem?_eq_getElem hlen⟩
    have hval : on.value = o.value := by
      have := v1.2 s.cells.length
      simp [val, hon] at this; exact this
    have hcnt : s.handles.count (some s.cells.length) = 0 := by
      rw [List.count_eq_zero]; intro hm; exact absurd (r.inv.lt _ hm) (by omega)
    have href : on.refs = 1 := by
      have h5 := i1.refs _ _ hon
      have h6 := count_set_opt (handle_get h1) (some s.cells.length) (some s.cells.length)
      have hne : ¬ (some c = some s.cells.length) := by
        intro hc; injection hc with hc; have := get_lt h2; omega
      rw [if_neg hne] at h6
      simp at h5 h6; omega
    have hvals : ∀ d, some d ∈ s.handles → val cs d = val s.cells d := by
      intro d hd
      rw [v1.2, val, List.getElem?_append_left (r.inv.lt d hd)]; rfl
    refine ⟨{ s with cells := cs, handles := s.handles.set x (some s.cells.length) }, s.cells.length, on, by simp only [copyCheck, h1, h3, Option.bind_some, if_neg hu, e1], ⟨i1, ?_, r.out⟩, ?_, hon, href,
      by rw [hval, h4], cell_pos hon (by omega), rfl, by simp, ?_⟩
    · dsimp only
      rw [map_set_val hvals, r.values]
      have : (some s.cells.length).bind (val cs) = some v := by simp [val, hon, hval, h4]
      rw [this]
      unfold Spec.value at h
      cases hp : p.values[x]? with
      | none => rw [hp] at h; cases h
      | some a =>
        rw [hp] at h; simp at h; subst h
        exact set_same hp
    · unfold handle; simp [List.getElem?_set_self hxlt]
    · intro y d hy hd hd1
      constructor
      · unfold handle; simp only [List.getElem?_set_ne (Ne.symm hy)]; exact hd
      · have h7 := count_set_opt (handle_get h1) (some s.cells.length) (some d)
        have hdl := r.inv.lt d (handle_mem hd)
        have hcd : c ≠ d := by
          rintro rfl
          have h8 := count_set_opt (handle_get hd) none (some c)
          have h9 : 0 < (s.handles.set y none).count (some c) := by
            rw [List.count_pos_iff]
            have : (s.handles.set y none)[x]? = some (some c) := by
              rw [List.getElem?_set_ne hy]; exact handle_get h1
            exact List.mem_of_getElem? this
          simp at h8; omega
        rw [if_neg (by simpa using hcd), if_neg (by simp; omega)] at h7
        dsimp only; omega

/-- A change of the value of storage that only handle `x` has. -/
theorem rel_change {s : State V} {p : Spec.Plain V} (r : Rel s p) {x c : Nat} {o : Cell V} (hx : handle s x = some c)
    (ho : s.cells[c]? = some o) (hu : o.refs = 1) (w : V) :
    Rel { s with cells := s.cells.set c { o with value := w } } { p with values := p.values.set x (some w) } := by
  have hclt := get_lt ho
  have hcnt : s.handles.count (some c) = 1 := by have := r.inv.refs c o ho; simp at this; omega
  refine ⟨⟨?_, fun d hd => by simp; exact r.inv.lt d hd, fun d hd => by cases hd⟩, ?_, r.out⟩
  · intro d o' hd
    dsimp only at hd
    rw [List.getElem?_set] at hd
    split_ifs at hd with h1 h2
    · subst h1; injection hd with hd; subst hd
      exact r.inv.refs c o ho
    · exact r.inv.refs d o' hd
  · dsimp only
    rw [← r.values]
    apply List.ext_getElem?
    intro y
    by_cases hy : y = x
    · subst hy
      have hlt := get_lt (handle_get hx)
      rw [List.getElem?_set_self (by simpa using hlt), List.getElem?_map, handle_get hx]
      simp [val, hclt]
    · rw [List.getElem?_set_ne (Ne.symm hy), List.getElem?_map, List.getElem?_map]
      cases hs : s.handles[y]? with
      | none => rfl
      | some a =>
        cases a with
        | none => rfl
        | some d =>
          have hdc : c ≠ d := by
            rintro rfl
            -- two handles to storage counted once
            have h2 := count_set_opt hs none (some c)
            have h3 : 0 < (s.handles.set y none).count (some c) := by
              rw [List.count_pos_iff]
              have : (s.handles.set y none)[x]? = some (some c) := by
                rw [List.getElem?_set_ne hy]; exact handle_get hx
              exact List.mem_of_getElem? this
            simp at h2; omega
          simp [val, List.getElem?_set_ne hdc]

end ELC.Cow
