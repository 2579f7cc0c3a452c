import Verif.Func.Spec

namespace ELC.Func

/-- How many pointers to the data there are: the variables, and one that the empty callable never loses. -/
def uses (vars : List (Option Nat)) (c : Nat) : Nat := vars.count (some c) + if c = 0 then 1 else 0

/-- The counts are the numbers `n`, data lives as long as its count is not zero, and what does not live was destroyed once. -/
structure Good (cells : List Cell) (freed : List Nat) (n : Nat → Nat) : Prop where
  first : ∃ d, cells[0]? = some d ∧ d.ty = 0
  refs : ∀ (c : Nat) (d : Cell), cells[c]? = some d → d.refs = n c
  live : ∀ (c : Nat) (d : Cell), cells[c]? = some d → (d.live = true ↔ 0 < n c)
  ty : ∀ (c : Nat) (d : Cell), cells[c]? = some d → c ≠ 0 → d.ty ≠ 0
  dead : ∀ (c : Nat) (d : Cell), cells[c]? = some d → (d.live = false ↔ c ∈ freed)
  once : freed.Nodup
  ranged : ∀ c, c ∈ freed → c < cells.length
  inside : ∀ c, 0 < n c → c < cells.length

/-- What holds between actions. -/
structure Inv (s : State) : Prop where
  good : Good s.cells s.freed (uses s.vars)
  running : ∀ c ∈ s.running, c < s.cells.length
  here : ∀ (t c : Nat), s.here t = some c → c < s.cells.length
  global : ∀ c, s.global = some c → c < s.cells.length

theorem inv_init : Inv init := by
  refine ⟨⟨⟨_, rfl, rfl⟩, ?_, ?_, ?_, ?_, List.nodup_nil, by simp [init], ?_⟩, by simp [init], by simp [init], by simp [init]⟩
  all_goals intro c
  · intro d h; cases c <;> simp [init] at h; subst h; simp [uses, init]
  · intro d h; cases c <;> simp [init] at h; subst h; simp [uses, init]
  · intro d h; cases c <;> simp [init] at h; simp
  · intro d h; cases c <;> simp [init] at h; subst h; simp [init]
  · intro h; simp only [uses, init, List.count_nil] at h ⊢; split at h <;> simp_all

theorem Good.congr {cells freed n m} (h : Good cells freed n) (e : ∀ c, n c = m c) : Good cells freed m := by
  have : n = m := funext e
  exact this ▸ h

/-- Counting a pointer to data that lives. -/
theorem Good.add {cells freed n} (h : Good cells freed n) {c : Nat} {d : Cell} (hc : cells[c]? = some d) (hn : 0 < n c) :
    Good (cells.set c { d with refs := d.refs + 1 }) freed (fun k => n k + if k = c then 1 else 0) := by
  have hlt : c < cells.length := h.inside c hn
  refine ⟨?_, ?_, ?_, ?_, ?_, h.once, ?_, ?_⟩
  · obtain ⟨e, he, ht⟩ := h.first
    by_cases h0 : c = 0
    · subst h0; rw [he] at hc; cases hc
      exact ⟨_, List.getElem?_set_self hlt, ht⟩
    · exact ⟨e, by rw [List.getElem?_set_ne h0]; exact he, ht⟩
  · intro k e he
    by_cases hk : c = k
    · subst hk; simp [hlt] at he; subst he; simp [h.refs c d hc]
    · rw [List.getElem?_set_ne hk] at he
      have := h.refs k e he
      simp only [Ne.symm hk, ↓reduceIte]; omega
  · intro k e he
    by_cases hk : c = k
    · subst hk; simp [hlt] at he; subst he; simp [(h.live c d hc).2 hn]
    · rw [List.getElem?_set_ne hk] at he
      have := h.live k e he
      simp only [Ne.symm hk, ↓reduceIte]; exact this
  · intro k e he h0
    by_cases hk : c = k
    · subst hk; simp [hlt] at he; subst he; exact h.ty c d hc h0
    · rw [List.getElem?_set_ne hk] at he; exact h.ty k e he h0
  · intro k e he
    by_cases hk : c = k
    · subst hk; simp [hlt] at he; subst he; exact h.dead c d hc
    · rw [List.getElem?_set_ne hk] at he; exact h.dead k e he
  · intro k hk; rw [List.length_set]; exact h.ranged k hk
  · intro k hk; rw [List.length_set]
    by_cases e : k = c
    · subst e; exact hlt
    · simp only [e, ↓reduceIte] at hk; exact h.inside k hk

/-- Counting the first pointer to new data. -/
theorem Good.new {cells freed n} (h : Good cells freed n) {ty st : Nat} (hty : ty ≠ 0) :
    Good (cells ++ [⟨ty, st, 1, true⟩]) freed (fun k => n k + if k = cells.length then 1 else 0) := by
  have hz : n cells.length = 0 := by
    rcases Nat.eq_zero_or_pos (n cells.length) with h0 | h0
    · exact h0
    · exact absurd (h.inside _ h0) (by omega)
  have hpos : 0 < cells.length := by
    obtain ⟨d, hd, _⟩ := h.first
    exact (List.getElem?_eq_some_iff.1 hd).1
  have cases_ : ∀ (k : Nat) (e : Cell), (cells ++ [(⟨ty, st, 1, true⟩ : Cell)])[k]? = some e →
      (k < cells.length ∧ cells[k]? = some e) ∨ (k = cells.length ∧ e = ⟨ty, st, 1, true⟩) := by
    intro k e he
    by_cases hk : k < cells.length
    · rw [List.getElem?_append_left hk] at he; exact .inl ⟨hk, he⟩
    · rw [List.getElem?_append_right (by omega)] at he
      have : k - cells.length = 0 := by
        rcases Nat.eq_zero_or_pos (k - cells.length) with h0 | h0
        · exact h0
        · rw [List.getElem?_eq_none (by simp; omega)] at he; cases he
      rw [this] at he; simp at he
      exact .inr ⟨by omega, he.symm⟩
  refine ⟨?_, ?_, ?_, ?_, ?_, h.once, ?_, ?_⟩
  · obtain ⟨d, hd, ht⟩ := h.first
    exact ⟨d, by rw [List.getElem?_append_left hpos]; exact hd, ht⟩
  · intro k e he
    rcases cases_ k e he with ⟨hk, he⟩ | ⟨hk, he⟩
    · have := h.refs k e he
      rw [if_neg (by omega)]; exact this
    · rw [he, hk]; simp [hz]
  · intro k e he
    rcases cases_ k e he with ⟨hk, he⟩ | ⟨hk, he⟩
    · have := h.live k e he
      rw [if_neg (by omega)]; exact this
    · rw [he, hk]; simp
  · intro k e he h0
    rcases cases_ k e he with ⟨hk, he⟩ | ⟨hk, he⟩
    · exact h.ty k e he h0
    · subst he; exact hty
  · intro k e he
    rcases cases_ k e he with ⟨hk, he⟩ | ⟨hk, he⟩
    · exact h.dead k e he
    · subst he; simp only [Bool.true_eq_false, false_iff]
      intro hf; have := h.ranged k hf; omega
  · intro k hk; have := h.ranged k hk; simp; omega
  · intro k hk
    by_cases e : k = cells.length
    · simp; omega
    · simp only [e, ↓reduceIte] at hk; have := h.inside k hk; simp; omega

/-- Giving up a pointer. -/
theorem Good.cut {s : State} {n} (h : Good s.cells s.freed n) {c : Nat} (hn : 0 < n c) (h0 : c = 0 → 1 < n c) :
    Good (s.cut c).cells (s.cut c).freed (fun k => n k - if k = c then 1 else 0) := by
  have hlt : c < s.cells.length := h.inside c hn
  obtain ⟨d, hc⟩ : ∃ d, s.cells[c]? = some d := ⟨_, List.getElem?_eq_getElem hlt⟩
  have hr := h.refs c d hc
  simp only [State.cut, hc]
  by_cases hz : d.refs - 1 = 0
  · simp only [hz, ↓reduceIte]
    have hc0 : c ≠ 0 := fun e => by have := h0 e; omega
    have h1 : n c = 1 := by omega
    refine ⟨?_, ?_, ?_, ?_, ?_, ?_, ?_, ?_⟩
    · obtain ⟨e, he, ht⟩ := h.first
      exact ⟨e, by rw [List.getElem?_set_ne hc0]; exact he, ht⟩
    · intro k e he
      by_cases hk : c = k
      · subst hk; simp [hlt] at he; subst he; simp [h1]
      · rw [List.getElem?_set_ne hk] at he
        have := h.refs k e he
        simp only [Ne.symm hk, ↓reduceIte]; omega
    · intro k e he
      by_cases hk : c = k
      · subst hk; simp [hlt] at he; subst he; simp [h1]
      · rw [List.getElem?_set_ne hk] at he
        have := h.live k e he
        simp only [Ne.symm hk, ↓reduceIte]; exact this
    · intro k e he hk0
      by_cases hk : c = k
      · subst hk; simp [hlt] at he; subst he; exact h.ty c d hc hk0
      · rw [List.getElem?_set_ne hk] at he; exact h.ty k e he hk0
    · intro k e he
      by_cases hk : c = k
      · subst hk; simp [hlt] at he; subst he; simp
      · rw [List.getElem?_set_ne hk] at he
        have := h.dead k e he
        simp only [List.mem_cons, Ne.symm hk, false_or]; exact this
    · refine List.nodup_cons.2 ⟨fun hf => ?_, h.once⟩
      have h2 := (h.dead c d hc).2 hf
      have h3 := (h.live c d hc).2 hn
      rw [h2] at h3; cases h3
    · intro k hk; rw [List.length_set]
      rcases List.mem_cons.1 hk with hk | hk
      · subst hk; exact hlt
      · exact h.ranged k hk
    · intro k hk; rw [List.length_set]; exact h.inside k (by omega)
  · simp only [hz, ↓reduceIte]
    refine ⟨?_, ?_, ?_, ?_, ?_, h.once, ?_, ?_⟩
    · obtain ⟨e, he, ht⟩ := h.first
      by_cases h0 : c = 0
      · subst h0; rw [he] at hc; cases hc
        exact ⟨_, List.getElem?_set_self hlt, ht⟩
      · exact ⟨e, by rw [List.getElem?_set_ne h0]; exact he, ht⟩
    · intro k e he
      by_cases hk : c = k
      · subst hk; simp [hlt] at he; subst he; simp; omega
      · rw [List.getElem?_set_ne hk] at he
        have := h.refs k e he
        simp only [Ne.symm hk, ↓reduceIte]; omega
    · intro k e he
      by_cases hk : c = k
      · subst hk; simp [hlt] at he; subst he; simp [(h.live c d hc).2 hn]; omega
      · rw [List.getElem?_set_ne hk] at he
        have := h.live k e he
        simp only [Ne.symm hk, ↓reduceIte]; exact this
    · intro k e he hk0
      by_cases hk : c = k
      · subst hk; simp [hlt] at he; subst he; exact h.ty c d hc hk0
      · rw [List.getElem?_set_ne hk] at he; exact h.ty k e he hk0
    · intro k e he
      by_cases hk : c = k
      · subst hk; simp [hlt] at he; subst he; exact h.dead c d hc
      · rw [List.getElem?_set_ne hk] at he; exact h.dead k e he
    · intro k hk; rw [List.length_set]; exact h.ranged k hk
    · intro k hk; rw [List.length_set]; exact h.inside k (by omega)

/-- Changing the state of a callable. -/
theorem Good.store {cells freed n} (h : Good cells freed n) {c : Nat} {d : Cell} (hc : cells[c]? = some d) (st : Nat) :
    Good (cells.set c { d with st := st }) freed n := by
  have hlt : c < cells.length := (List.getElem?_eq_some_iff.1 hc).1
  have cases_ : ∀ (k : Nat) (e : Cell), (cells.set c { d with st := st })[k]? = some e →
      ∃ e', cells[k]? = some e' ∧ e'.ty = e.ty ∧ e'.refs = e.refs ∧ e'.live = e.live := by
    intro k e he
    by_cases hk : c = k
    · subst hk; simp [hlt] at he; subst he; exact ⟨d, hc, rfl, rfl, rfl⟩
    · rw [List.getElem?_set_ne hk] at he; exact ⟨e, he, rfl, rfl, rfl⟩
  refine ⟨?_, ?_, ?_, ?_, ?_, h.once, ?_, ?_⟩
  · obtain ⟨e, he, ht⟩ := h.first
    by_cases h0 : c = 0
    · subst h0; rw [he] at hc; cases hc
      exact ⟨_, List.getElem?_set_self hlt, ht⟩
    · exact ⟨e, by rw [List.getElem?_set_ne h0]; exact he, ht⟩
  · intro k e he; obtain ⟨e', h1, h2, h3, h4⟩ := cases_ k e he; rw [← h3]; exact h.refs k e' h1
  · intro k e he; obtain ⟨e', h1, h2, h3, h4⟩ := cases_ k e he; rw [← h4]; exact h.live k e' h1
  · intro k e he hk; obtain ⟨e', h1, h2, h3, h4⟩ := cases_ k e he; rw [← h2]; exact h.ty k e' h1 hk
  · intro k e he; obtain ⟨e', h1, h2, h3, h4⟩ := cases_ k e he; rw [← h4]; exact h.dead k e' h1
  · intro k hk; rw [List.length_set]; exact h.ranged k hk
  · intro k hk; rw [List.length_set]; exact h.inside k hk

/-! ### what counting leaves alone -/

theorem add_eq (s : State) (c : Nat) (d : Cell) (hc : s.cells[c]? = some d) :
    s.add c = { s with cells := s.cells.set c { d with refs := d.refs + 1 } } := by simp [State.add, hc]

theorem map_set_same {cells : List Cell} {c : Nat} {d e : Cell} (hc : cells[c]? = some d) (ht : e.ty = d.ty)
    (hs : e.st = d.st) :
    (cells.set c e).map (fun d => (d.ty, d.st)) = cells.map fun d => (d.ty, d.st) := by
  rw [List.map_set]
  apply List.ext_getElem?
  intro k
  by_cases hk : c = k
  · subst hk
    have hlt : c < cells.length := (List.getElem?_eq_some_iff.1 hc).1
    rw [List.getElem?_set_self (by simpa using hlt), List.getElem?_map, hc]; simp [ht, hs]
  · rw [List.getElem?_set_ne hk]

theorem add_things (s : State) (c : Nat) :
    (s.add c).cells.map (fun d => (d.ty, d.st)) = s.cells.map fun d => (d.ty, d.st) := by
  unfold State.add; split
  · rename_i d hd; exact map_set_same hd rfl rfl
  · rfl

theorem cut_things (s : State) (c : Nat) :
    (s.cut c).cells.map (fun d => (d.ty, d.st)) = s.cells.map fun d => (d.ty, d.st) := by
  unfold State.cut; split
  · rename_i d hd; split <;> exact map_set_same hd rfl rfl
  · rfl

theorem add_length (s : State) (c : Nat) : (s.add c).cells.length = s.cells.length := by
  unfold State.add; split <;> simp

theorem cut_length (s : State) (c : Nat) : (s.cut c).cells.length = s.cells.length := by
  unfold State.cut; split
  · split <;> simp
  · rfl

@[simp] theorem add_rest (s : State) (c : Nat) : (s.add c).vars = s.vars ∧ (s.add c).running = s.running ∧
    (s.add c).here = s.here ∧ (s.add c).global = s.global ∧ (s.add c).freed = s.freed := by
  unfold State.add; split <;> simp

@[simp] theorem cut_rest (s : State) (c : Nat) : (s.cut c).vars = s.vars ∧ (s.cut c).running = s.running ∧
    (s.cut c).here = s.here ∧ (s.cut c).global = s.global := by
  unfold State.cut; split
  · split <;> simp
  · simp

theorem var_some {s : State} {x c : Nat} (h : s.var x = some c) : s.vars[x]? = some (some c) := by
  unfold State.var at h
  cases hx : s.vars[x]? with
  | none => rw [hx] at h; cases h
  | some o => rw [hx] at h; simp at h; rw [h]

theorem var_held {s : State} {x c : Nat} (h : s.var x = some c) : s.Held c := List.mem_of_getElem? (var_some h)

theorem uses_held {s : State} {c : Nat} (h : s.Held c) : 0 < s.vars.count (some c) := List.count_pos_iff.2 h

theorem var_uses {s : State} {x c : Nat} (h : s.var x = some c) : 0 < uses s.vars c := by
  have := uses_held (var_held h); unfold uses; omega

/-- The data of a variable lives. -/
theorem Inv.var_cell {s : State} (hi : Inv s) {x c : Nat} (h : s.var x = some c) :
    ∃ d, s.cells[c]? = some d ∧ d.live = true := by
  have hp := var_uses h
  have hlt := hi.good.inside c hp
  exact ⟨_, List.getElem?_eq_getElem hlt, (hi.good.live c _ (List.getElem?_eq_getElem hlt)).2 hp⟩

theorem Inv.zero_cell {s : State} (hi : Inv s) : ∃ d, s.cells[0]? = some d ∧ d.live = true ∧ d.ty = 0 := by
  obtain ⟨d, hd, ht⟩ := hi.good.first
  exact ⟨d, hd, (hi.good.live 0 d hd).2 (by simp [uses]), ht⟩

theorem uses_append (l : List (Option Nat)) (c k : Nat) :
    uses (l ++ [some c]) k = uses l k + if k = c then 1 else 0 := by
  unfold uses
  rw [List.count_append, List.count_singleton]
  simp only [beq_iff_eq, Option.some.injEq]
  by_cases h : c = k
  · simp [h]; omega
  · simp [h, Ne.symm h]

theorem uses_set {l : List (Option Nat)} {x old : Nat} (h : l[x]? = some (some old)) (c k : Nat) :
    uses (l.set x (some c)) k = uses l k - (if k = old then 1 else 0) + (if k = c then 1 else 0) := by
  obtain ⟨hx, he⟩ := List.getElem?_eq_some_iff.1 h
  unfold uses
  rw [List.count_set hx, he]
  have hp : k = old → 0 < l.count (some k) := fun e => by
    subst e; exact List.count_pos_iff.2 (List.mem_of_getElem? h)
  by_cases h1 : k = old
  · have := hp h1
    by_cases h2 : k = c
    · subst h1 h2; simp; omega
    · subst h1; simp [h2, Ne.symm h2]; omega
  · by_cases h2 : k = c
    · subst h2; simp [h1, Ne.symm h1]; omega
    · simp [h1, Ne.symm h1, h2, Ne.symm h2]

theorem uses_drop {l : List (Option Nat)} {x old : Nat} (h : l[x]? = some (some old)) (k : Nat) :
    uses (l.set x none) k = uses l k - (if k = old then 1 else 0) := by
  obtain ⟨hx, he⟩ := List.getElem?_eq_some_iff.1 h
  unfold uses
  rw [List.count_set hx, he]
  have hp : k = old → 0 < l.count (some k) := fun e => by
    subst e; exact List.count_pos_iff.2 (List.mem_of_getElem? h)
  by_cases h1 : k = old
  · have := hp h1; subst h1; simp; omega
  · simp [h1, Ne.symm h1]

/-! ### actions keep what holds -/

theorem push_world (s : State) (c : Nat) :
    (s.push c).world = { s.world with names := s.vars ++ [some c] } := by
  simp [State.push, State.world, add_things]

theorem Inv.push {s : State} (hi : Inv s) {c : Nat} (hc : 0 < uses s.vars c) : Inv (s.push c) := by
  obtain ⟨d, hd⟩ : ∃ d, s.cells[c]? = some d := ⟨_, List.getElem?_eq_getElem (hi.good.inside c hc)⟩
  have hg := hi.good.add hd hc
  refine ⟨?_, ?_, ?_, ?_⟩
  · simp only [State.push, add_eq s c d hd]
    exact hg.congr fun k => (uses_append s.vars c k).symm
  · intro k hk; simp only [State.push, add_eq s c d hd, List.length_set] at hk ⊢; exact hi.running k hk
  · intro t k hk; simp only [State.push, add_eq s c d hd, List.length_set] at hk ⊢; exact hi.here t k hk
  · intro k hk; simp only [State.push, add_eq s c d hd, List.length_set] at hk ⊢; exact hi.global k hk

/-- New data with its first pointer. -/
def State.fresh (s : State) (ty st : Nat) : State := { s with cells := s.cells ++ [⟨ty, st, 1, true⟩] }

theorem new_add (s : State) (ty st : Nat) : (s.new ty st).1.add (s.new ty st).2 = s.fresh ty st := by
  simp [State.new, State.add, State.fresh]

theorem pushNew_eq (s : State) (ty st : Nat) :
    (s.new ty st).1.push (s.new ty st).2 = { s.fresh ty st with vars := s.vars ++ [some s.cells.length] } := by
  simp only [State.push, new_add]; rfl

theorem Inv.pushNew {s : State} (hi : Inv s) {ty : Nat} (st : Nat) (hty : ty ≠ 0) :
    Inv ((s.new ty st).1.push (s.new ty st).2) := by
  rw [pushNew_eq]
  refine ⟨?_, ?_, ?_, ?_⟩
  · exact (hi.good.new hty).congr fun k => (uses_append s.vars s.cells.length k).symm
  · intro k hk; have := hi.running k hk; simp [State.fresh]; omega
  · intro t k hk; have := hi.here t k hk; simp [State.fresh]; omega
  · intro k hk; have := hi.global k hk; simp [State.fresh]; omega

theorem point_eq {s : State} {x old : Nat} (h : s.var x = some old) (c : Nat) :
    s.point x c = { (s.add c).cut old with vars := s.vars.set x (some c) } := by simp [State.point, h]

theorem point_world {s : State} {x old : Nat} (h : s.var x = some old) (c : Nat) :
    (s.point x c).world = { s.world with names := s.vars.set x (some c) } := by
  simp [point_eq h, State.world, cut_things, add_things]

theorem Inv.point {s : State} (hi : Inv s) {x old c : Nat} (h : s.var x = some old) (hc : 0 < uses s.vars c) :
    Inv (s.point x c) := by
  obtain ⟨d, hd⟩ : ∃ d, s.cells[c]? = some d := ⟨_, List.getElem?_eq_getElem (hi.good.inside c hc)⟩
  have hv := var_uses h
  have hcount := uses_held (var_held h)
  have h0 : old = 0 → 1 < uses s.vars old := fun e => by unfold uses; rw [if_pos e]; omega
  rw [point_eq h]
  have hg := hi.good.add hd hc
  have hg' : Good (s.add c).cells (s.add c).freed (fun k => uses s.vars k + if k = c then 1 else 0) := by
    rw [add_eq s c d hd]; exact hg
  have hk := hg'.cut (c := old) (by omega) (fun e => by have := h0 e; omega)
  refine ⟨?_, ?_, ?_, ?_⟩
  · refine hk.congr fun k => ?_
    rw [uses_set (var_some h)]
    by_cases h1 : k = old
    · subst h1; simp only [↓reduceIte]; split <;> omega
    · simp [h1]
  · intro k hk; simp only [cut_length, add_length, cut_rest, add_rest] at hk ⊢; exact hi.running k hk
  · intro t k hk; simp only [cut_length, add_length, cut_rest, add_rest] at hk ⊢; exact hi.here t k hk
  · intro k hk; simp only [cut_length, add_length, cut_rest, add_rest] at hk ⊢; exact hi.global k hk

theorem pointNew_eq {s : State} {x old : Nat} (h : s.var x = some old) (ty st : Nat) :
    (s.new ty st).1.point x (s.new ty st).2 =
      { (s.fresh ty st).cut old with vars := s.vars.set x (some s.cells.length) } := by
  have : (s.new ty st).1.var x = some old := h
  rw [point_eq this, new_add]; rfl

theorem pointNew_world {s : State} {x old : Nat} (h : s.var x = some old) (ty st : Nat) :
    ((s.new ty st).1.point x (s.new ty st).2).world =
      { s.world with things := s.world.things ++ [(ty, st)], names := s.vars.set x (some s.cells.length) } := by
  rw [pointNew_eq h]
  simp [State.world, cut_things, State.fresh]

theorem Inv.pointNew {s : State} (hi : Inv s) {x old ty : Nat} (st : Nat) (h : s.var x = some old) (hty : ty ≠ 0) :
    Inv ((s.new ty st).1.point x (s.new ty st).2) := by
  have hv := var_uses h
  have hcount := uses_held (var_held h)
  have h0 : old = 0 → 1 < uses s.vars old := fun e => by unfold uses; rw [if_pos e]; omega
  have hlt := hi.good.inside old hv
  rw [pointNew_eq h]
  have hg : Good (s.fresh ty st).cells (s.fresh ty st).freed _ := hi.good.new hty
  have hk := hg.cut (c := old) (by omega) (fun e => by have := h0 e; omega)
  refine ⟨?_, ?_, ?_, ?_⟩
  · refine hk.congr fun k => ?_
    rw [uses_set (var_some h)]
    by_cases h1 : k = old
    · subst h1; simp only [↓reduceIte]; split <;> omega
    · simp [h1]
  · intro k hk; have := hi.running k (by simpa [State.fresh] using hk); simp only [cut_length]; simp [State.fresh]; omega
  · intro t k hk; have := hi.here t k (by simpa [State.fresh] using hk); simp only [cut_length]; simp [State.fresh]; omega
  · intro k hk; have := hi.global k (by simpa [State.fresh] using hk); simp only [cut_length]; simp [State.fresh]; omega

theorem Inv.drop {s : State} (hi : Inv s) {x old : Nat} (h : s.var x = some old) :
    Inv { s.cut old with vars := s.vars.set x none } := by
  have hv := var_uses h
  have hcount := uses_held (var_held h)
  have h0 : old = 0 → 1 < uses s.vars old := fun e => by unfold uses; rw [if_pos e]; omega
  have hk := hi.good.cut (c := old) hv h0
  refine ⟨?_, ?_, ?_, ?_⟩
  · exact hk.congr fun k => (uses_drop (var_some h) k).symm
  · intro k hk; simp only [cut_length, cut_rest] at hk ⊢; exact hi.running k hk
  · intro t k hk; simp only [cut_length, cut_rest] at hk ⊢; exact hi.here t k hk
  · intro k hk; simp only [cut_length, cut_rest] at hk ⊢; exact hi.global k hk

/-- Other names for the same data. -/
theorem Inv.rename {s : State} (hi : Inv s) {vars : List (Option Nat)} (h : ∀ k, uses vars k = uses s.vars k) :
    Inv { s with vars := vars } :=
  ⟨hi.good.congr fun k => (h k).symm, hi.running, hi.here, hi.global⟩

theorem uses_swap {l : List (Option Nat)} {x y a b : Nat} (hx : l[x]? = some (some a)) (hy : l[y]? = some (some b))
    (k : Nat) : uses ((l.set x (some b)).set y (some a)) k = uses l k := by
  have hx' := (List.getElem?_eq_some_iff.1 hx).1
  have pos : ∀ c, some c ∈ l → 0 < uses l c := fun c hc => by
    have := List.count_pos_iff.2 hc; unfold uses; omega
  have pa := pos a (List.mem_of_getElem? hx)
  have pb := pos b (List.mem_of_getElem? hy)
  have hy' : (l.set x (some b))[y]? = some (some b) := by
    by_cases e : x = y
    · subst e; simp [hx']
    · rw [List.getElem?_set_ne e]; exact hy
  rw [uses_set hy', uses_set hx]
  by_cases h1 : k = a <;> by_cases h2 : k = b
  · subst h1; simp [← h2]; omega
  · subst h1; simp [h2]; omega
  · subst h2; simp [h1]
  · simp [h1, h2]

theorem Inv.store {s : State} (hi : Inv s) {c : Nat} {d : Cell} (hc : s.cells[c]? = some d) (st : Nat) :
    Inv { s with cells := s.cells.set c { d with st := st } } := by
  refine ⟨hi.good.store hc st, ?_, ?_, ?_⟩
  · intro k hk; simp only [List.length_set]; exact hi.running k hk
  · intro t k hk; simp only [List.length_set]; exact hi.here t k hk
  · intro k hk; simp only [List.length_set]; exact hi.global k hk

theorem store_world (s : State) (c : Nat) (d : Cell) :
    ({ s with cells := s.cells.set c d } : State).world = { s.world with things := s.world.things.set c (d.ty, d.st) } := by
  simp [State.world, List.map_set]

theorem thing {s : State} {c : Nat} {d : Cell} (h : s.cells[c]? = some d) : s.world.things[c]? = some (d.ty, d.st) := by
  simp [State.world, h]

theorem named (s : State) (x : Nat) : s.world.named x = s.var x := rfl

/-- A call of data that is there. -/
theorem callAt_done (K : Kinds) {s : State} (hi : Inv s) {c a : Nat} {d : Cell} (hc : s.cells[c]? = some d)
    (hl : d.live = true) :
    ∃ s' o, s.callAt K c a = .done s' o ∧ Inv s' ∧ s.world.use K c a = some (s'.world, o) ∧ s'.vars = s.vars ∧
      s'.here = s.here ∧ s'.global = s.global ∧ s'.running = s.running := by
  refine ⟨_, _, by simp only [State.callAt, hc, hl, ↓reduceIte]; rfl, hi.store hc _, ?_, rfl, rfl, rfl, rfl⟩
  simp only [World.use, thing hc, store_world, invoke]
  by_cases h0 : d.ty = 0
  · simp only [h0, ↓reduceIte]
    have : s.world.things.set c (0, d.st) = s.world.things := by
      have h := thing hc
      rw [h0] at h
      apply List.ext_getElem?
      intro k
      by_cases hk : c = k
      · subst hk
        rw [List.getElem?_set_self (List.getElem?_eq_some_iff.1 h).1, h]
      · rw [List.getElem?_set_ne hk]
    rw [this]
  · simp only [h0, ↓reduceIte]

theorem equal_same (K : Kinds) (d e : Cell) :
    (d.ty == e.ty && equalWith K d.ty d.st e.st) = same K (d.ty, d.st) (e.ty, e.st) := by
  unfold same equalWith
  by_cases h0 : d.ty = 0
  · simp [h0]
  · have hb : (d.ty == 0) = false := by simp [h0]
    cases h : K.equal d.ty <;> simp [h0, hb]

end ELC.Func
