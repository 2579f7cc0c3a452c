import Verif.Pool.Lemmas
/-! The pool allocator: C43. -/
namespace ELC.Pool

open Spec

theorem start_inv (n size : Nat) : Inv n size start := ⟨by simp [start, available, slots], fun m hm => by simp [start] at hm, List.Pairwise.nil⟩

theorem sound_of_inv {n size : Nat} (hs : 0 < size) {s : State} (inv : Inv n size s) : Sound n size s := by
  have hnd := inv_nodup hs inv
  refine ⟨(List.nodup_append.1 hnd).1, ?_, inv.all⟩
  intro a ha b hb hab
  obtain ⟨m, hm, i, hi, rfl⟩ := mem_slots.1 (inv.all.subset (List.mem_append_left _ ha))
  obtain ⟨m', hm', j, hj, rfl⟩ := mem_slots.1 (inv.all.subset (List.mem_append_left _ hb))
  have h1 := slot_lt (size := size) hi
  have h2 := slot_lt (size := size) hj
  by_cases he : m = m'
  · subst he
    have hij : i ≠ j := by rintro rfl; exact hab rfl
    rcases slot_apart (size := size) hij with h | h
    · left; omega
    · right; omega
  · have hap : Apart (n * size) m.base m'.base := by
      obtain ⟨x, hx, rfl⟩ := List.getElem_of_mem hm
      obtain ⟨y, hy, rfl⟩ := List.getElem_of_mem hm'
      have hpw := List.pairwise_iff_getElem.1 inv.apart
      rcases Nat.lt_trichotomy x y with h | h | h
      · exact hpw x y hx hy h
      · subst h; exact absurd rfl he
      · rcases hpw y x hy hx h with h | h
        · exact Or.inr h
        · exact Or.inl h
    rcases hap with h | h
    · left; omega
    · right; omega

theorem exec_inv {n size : Nat} (hn : 0 < n) (hs : 0 < size) {s s' : State} (inv : Inv n size s) {op : Op} (hv : Valid n size s op)
    (e : exec n size s op = some s') : Inv n size s' := by
  cases op with
  | alloc b =>
    obtain ⟨s1, e1, h1⟩ := inv_alloc hn inv hv
    rw [e] at e1; injection e1 with e1; subst e1; exact h1
  | free a =>
    by_cases h : ∃ m ∈ s.pool, m.base ≤ a ∧ a < m.base + (n - 1)
    · obtain ⟨s1, e1, h1⟩ := (inv_free hs inv hv).1 h
      rw [e] at e1; injection e1 with e1; subst e1; exact h1
    · rw [(inv_free hs inv hv).2 h] at e; cases e
  | shrink =>
    simp only [exec, Option.some.injEq] at e; subst e
    exact inv_shrink hs inv

theorem run_inv {n size : Nat} (hn : 0 < n) (hs : 0 < size) : ∀ (ops : List Op) {s s' : State}, Inv n size s →
    Along n size (Valid n size) s ops → run n size s ops = some s' → Inv n size s' := by
  intro ops
  induction ops with
  | nil => intro s s' inv _ e; simp only [run, Option.some.injEq] at e; subst e; exact inv
  | cons op ops ih =>
    intro s s' inv hv e
    simp only [run, Option.bind_eq_some_iff] at e
    obtain ⟨s1, e1, e2⟩ := e
    exact ih (exec_inv hn hs inv hv.1 e1) (hv.2 s1 e1) e2

/-- C43: as long as nothing undefined has happened: no slot is held twice, held slots do not overlap, and every slot of every block
is either held or free. -/
theorem pool_sound {n size : Nat} (hn : 2 ≤ n) (hs : 0 < size) {ops : List Op} {s : State}
    (hv : Along n size (Valid n size) start ops) (h : run n size start ops = some s) : Sound n size s :=
  sound_of_inv hs (run_inv (by omega) hs ops (start_inv n size) hv h)

/-- C43: nothing undefined ever happens if what is given back lies in the first `n - 1` bytes of its block. -/
theorem pool_defined_partial {n size : Nat} (hn : 2 ≤ n) (hs : 0 < size) {ops : List Op}
    (hv : Along n size (Valid n size) start ops) (hf : Along n size (InFront n) start ops) : ∃ s, run n size start ops = some s := by
  have key : ∀ (ops : List Op) {s : State}, Inv n size s → Along n size (Valid n size) s ops → Along n size (InFront n) s ops →
      ∃ s', run n size s ops = some s' := by
    intro ops
    induction ops with
    | nil => intro s _ _ _; exact ⟨s, rfl⟩
    | cons op ops ih =>
      intro s inv hv hf
      have step : ∃ s1, exec n size s op = some s1 := by
        cases op with
        | alloc b => obtain ⟨s1, e1, _⟩ := inv_alloc (by omega) inv hv.1; exact ⟨s1, e1⟩
        | free a => obtain ⟨s1, e1, _⟩ := (inv_free hs inv hv.1).1 hf.1; exact ⟨s1, e1⟩
        | shrink => exact ⟨_, rfl⟩
      obtain ⟨s1, e1⟩ := step
      obtain ⟨s2, e2⟩ := ih (exec_inv (by omega) hs inv hv.1 e1) (hv.2 s1 e1) (hf.2 s1 e1)
      exact ⟨s2, by rw [run, e1]; exact e2⟩
  exact key ops (start_inv n size) hv hf

/-- C43: a slot held can be given back exactly when it lies in the first `n - 1` bytes of its block. -/
theorem free_defined_characterised {n size : Nat} (hn : 2 ≤ n) (hs : 0 < size) {ops : List Op} {s : State}
    (hv : Along n size (Valid n size) start ops) (h : run n size start ops = some s) {a : Nat} (ha : a ∈ s.live) :
    (exec n size s (.free a)).isSome ↔ ∃ m ∈ s.pool, m.base ≤ a ∧ a < m.base + (n - 1) := by
  have inv := run_inv (by omega) hs ops (start_inv n size) hv h
  constructor
  · intro h1
    by_contra h2
    rw [(inv_free hs inv ha).2 h2] at h1; cases h1
  · intro h1
    obtain ⟨s1, e1, _⟩ := (inv_free hs inv ha).1 h1
    rw [e1]; rfl

/-- C43 fails as it stands: the first slot ever handed out can never be given back, whatever the block and slot sizes. -/
theorem pool_defined_refuted {n size : Nat} (hn : 2 ≤ n) (hs : 0 < size) (b : Nat) :
    ∃ a s, run n size start [.alloc b] = some s ∧ s.live = [a] ∧ Along n size (Valid n size) start [.alloc b, .free a] ∧
      run n size start [.alloc b, .free a] = none := by
  obtain ⟨k, rfl⟩ : ∃ k, n = k + 1 := ⟨n - 1, by omega⟩
  have hfr : (Ment.fresh (k + 1) b).unused = k :: (List.range k).reverse := by simp [Ment.fresh, List.range_succ]
  have hbase : (Ment.fresh (k + 1) b).base = b := rfl
  have he : exec (k + 1) size start (.alloc b) = some ⟨[⟨b, (List.range k).reverse⟩], [b + k * size]⟩ := by
    simp only [exec, getNew, start, getNewIn, Ment.getNew, hfr, Option.map_some, hbase, List.nil_append]
  have hk : k ≤ k * size := Nat.le_mul_of_pos_right _ hs
  refine ⟨b + k * size, ⟨[⟨b, (List.range k).reverse⟩], [b + k * size]⟩, by simp only [run, he, Option.bind_some], rfl, ?_, ?_⟩
  · refine ⟨fun m hm => by simp [start] at hm, fun s' hs' => ?_⟩
    rw [he] at hs'; injection hs' with hs'; subst hs'
    exact ⟨by simp [Valid], fun _ _ => trivial⟩
  · rw [run, he, Option.bind_some, run]
    simp [exec, free, Ment.inPool]
    intro _ _ h; omega

/-- C43: what one operation does to the slots held and the slots free. -/
theorem free_available {n size : Nat} (hn : 2 ≤ n) (hs : 0 < size) {ops : List Op} {s s' : State}
    (hv : Along n size (Valid n size) start ops) (h : run n size start ops = some s) {a : Nat} (ha : a ∈ s.live)
    (e : exec n size s (.free a) = some s') :
    (available size s'.pool).Perm (a :: available size s.pool) ∧ s'.pool.map Ment.base = s.pool.map Ment.base ∧
      s'.live = s.live.erase a := by
  have inv := run_inv (by omega) hs ops (start_inv n size) hv h
  have inv' := exec_inv (by omega) hs inv (op := .free a) ha e
  have hlive : s'.live = s.live.erase a := by
    simp only [exec, Option.map_eq_some_iff] at e
    obtain ⟨p, _, rfl⟩ := e; rfl
  have hbase : ∀ {p q : List Ment}, free n size a p = some q → q.map Ment.base = p.map Ment.base := by
    intro p
    induction p with
    | nil => intro q h; cases h
    | cons m ms ih =>
      intro q h
      rw [free] at h
      split at h
      · simp only [Option.map_eq_some_iff, Ment.useEnd] at h
        obtain ⟨m', h1, rfl⟩ := h
        split at h1
        · injection h1 with h1; subst h1; rfl
        · cases h1
      · simp only [Option.map_eq_some_iff] at h
        obtain ⟨ms', h1, rfl⟩ := h
        simp [ih h1]
  have hb : s'.pool.map Ment.base = s.pool.map Ment.base := by
    simp only [exec, Option.map_eq_some_iff] at e
    obtain ⟨p, e1, rfl⟩ := e; exact hbase e1
  refine ⟨?_, hb, hlive⟩
  have hslots : slots n size s'.pool = slots n size s.pool := by
    have : ∀ p : List Ment, slots n size p = (p.map Ment.base).flatMap fun b => (List.range n).map fun i => b + i * size := by
      intro p; simp [slots, List.flatMap_map]
    rw [this, this, hb]
  have h1 := inv'.all
  rw [hslots, hlive] at h1
  have h2 := (h1.trans inv.all.symm)
  have h3 : (s.live.erase a ++ available size s'.pool).Perm (s.live.erase a ++ (a :: available size s.pool)) := by
    refine h2.trans ?_
    refine ((List.perm_cons_erase ha).append_right _).trans ?_
    simp only [List.cons_append]
    exact List.perm_middle.symm
  exact (List.perm_append_left_iff _).1 h3

/-- C43: the slot handed out was free, or is one of a new block. -/
theorem alloc_available {n size : Nat} {s s' : State} {b : Nat} (hn : 2 ≤ n)
    (e : exec n size s (.alloc b) = some s') :
    ∃ a, s'.live = a :: s.live ∧
      (if available size s.pool = [] then (a :: available size s'.pool).Perm ((List.range n).map fun i => b + i * size)
       else (a :: available size s'.pool).Perm (available size s.pool)) := by
  rcases getNewIn_cases size s.pool with ⟨h1, h2⟩ | ⟨u, m, v, i, rest, hp, hu, h3⟩
  · obtain ⟨k, rfl⟩ : ∃ k, n = k + 1 := ⟨n - 1, by omega⟩
    have hfr : (Ment.fresh (k + 1) b).unused = k :: (List.range k).reverse := by simp [Ment.fresh, List.range_succ]
    have hbase : (Ment.fresh (k + 1) b).base = b := rfl
    simp only [exec, getNew, h1, Ment.getNew, hfr, Option.map_some, hbase, Option.some.injEq] at e
    subst e
    have h0 : available size s.pool = [] := by
      simp only [available, List.flatMap_eq_nil_iff]
      intro m hm; rw [h2 m hm]; rfl
    refine ⟨_, rfl, ?_⟩
    rw [if_pos h0, available_append, h0, List.nil_append, available_cons, List.range_succ, List.map_append]
    refine List.Perm.trans ?_ List.perm_append_comm
    simp only [List.map_cons, List.map_nil, List.cons_append, List.nil_append, available, List.flatMap_nil, List.append_nil]
    exact List.Perm.cons _ ((List.reverse_perm _).map _)
  · simp only [exec, getNew, h3, Option.map_some, Option.some.injEq] at e
    subst e
    refine ⟨_, rfl, ?_⟩
    rw [if_neg]
    · rw [hp]
      simp only [available_append, available_cons, hu, List.map_cons, List.cons_append]
      exact List.perm_middle.symm
    · rw [hp, available_append, available_cons, hu]; simp

/-- C43: shrinking gives back only blocks of which no slot is held; the pool is empty exactly when nothing is held. -/
theorem shrink_keeps {n size : Nat} (hn : 2 ≤ n) (hs : 0 < size) {ops : List Op} {s : State}
    (hv : Along n size (Valid n size) start ops) (h : run n size start ops = some s) :
    (∀ m ∈ s.pool, m ∈ shrink n s.pool ↔ ∃ i < n, m.base + i * size ∈ s.live) ∧ (empty n s.pool = true ↔ s.live = []) := by
  have inv := run_inv (by omega) hs ops (start_inv n size) hv h
  have hnd := inv_nodup hs inv
  have key : ∀ m ∈ s.pool, m.empty n = false ↔ ∃ i < n, m.base + i * size ∈ s.live := by
    intro m hm
    have hun := unused_nodup hs inv m hm
    have hr := inv.range m hm
    have hiff : ∀ i < n, m.base + i * size ∈ s.live ↔ i ∉ m.unused := by
      intro i hi
      constructor
      · intro hl hu
        rw [List.nodup_append] at hnd
        exact hnd.2.2 _ hl (m.base + i * size) (by
          simp only [available, List.mem_flatMap, List.mem_map]; exact ⟨m, hm, i, hu, rfl⟩) rfl
      · intro hu
        have hslot : m.base + i * size ∈ s.live ++ available size s.pool :=
          inv.all.symm.subset (mem_slots.2 ⟨m, hm, i, hi, rfl⟩)
        rcases List.mem_append.1 hslot with h | h
        · exact h
        · exfalso
          simp only [available, List.mem_flatMap, List.mem_map] at h
          obtain ⟨m', hm', j, hj, he⟩ := h
          have hj' := inv.range m' hm' j hj
          have h1 := slot_lt (size := size) hi
          have h2 := slot_lt (size := size) hj'
          by_cases hmm : m = m'
          · subst hmm
            by_cases hij : i = j
            · subst hij; exact hu hj
            · rcases slot_apart (size := size) hij with h | h <;> omega
          · obtain ⟨x, hx, rfl⟩ := List.getElem_of_mem hm
            obtain ⟨y, hy, rfl⟩ := List.getElem_of_mem hm'
            have hpw := List.pairwise_iff_getElem.1 inv.apart
            rcases Nat.lt_trichotomy x y with h | h | h
            · rcases hpw x y hx hy h with h | h <;> omega
            · subst h; exact absurd rfl hmm
            · rcases hpw y x hy hx h with h | h <;> omega
    have hsub : m.unused.Subperm (List.range n) := List.subperm_of_subset hun fun i hi => List.mem_range.2 (hr i hi)
    rw [Ment.empty, decide_eq_false_iff_not]
    constructor
    · intro hlen
      by_contra hc
      apply hlen
      have hall : ∀ i ∈ List.range n, i ∈ m.unused := by
        intro i hi
        rw [List.mem_range] at hi
        by_contra hnu
        exact hc ⟨i, hi, (hiff i hi).2 hnu⟩
      have h1 := (List.subperm_of_subset List.nodup_range hall).length_le
      have h2 := hsub.length_le
      simp at h1 h2; omega
    · rintro ⟨i, hi, hl⟩ hlen
      have hperm := List.Subperm.perm_of_length_le hsub (by rw [hlen]; simp)
      exact (hiff i hi).1 hl (hperm.symm.subset (List.mem_range.2 hi))
  constructor
  · intro m hm
    rw [← key m hm, shrink, List.mem_filter]
    simp [hm]
  · rw [empty, List.all_eq_true]
    constructor
    · intro h1
      cases hl : s.live with
      | nil => rfl
      | cons a l =>
        exfalso
        have ha : a ∈ s.live := by rw [hl]; simp
        obtain ⟨m, hm, i, hi, rfl⟩ := mem_slots.1 (inv.all.subset (List.mem_append_left _ ha))
        have := (key m hm).2 ⟨i, hi, ha⟩
        rw [h1 m hm] at this; cases this
    · intro h1 m hm
      by_contra hc
      rw [Bool.not_eq_true] at hc
      obtain ⟨i, _, hl⟩ := (key m hm).1 hc
      rw [h1] at hl; cases hl

/-! ### blocks of three slots of one byte: five slots handed out, the third given back and handed out again -/

def history : List Op := [.alloc 100, .alloc 0, .alloc 0, .alloc 200, .alloc 0, .free 101, .alloc 0, .free 200, .shrink]

example : (run 3 1 start history).map (fun s => (s.live, s.pool)) =
    some ([201, 202, 100, 102], [⟨100, [1]⟩, ⟨200, [0]⟩]) := by decide

example : Along 3 1 (Valid 3 1) start history ∧ Along 3 1 (InFront 3) start history := by
  simp [history, Along, Valid, InFront, start, exec, getNew, getNewIn, Ment.fresh, Ment.getNew, free, Ment.inPool, Ment.useEnd, Apart,
    List.range_succ]

end ELC.Pool
