import Verif.Pool.Spec
import Mathlib.Data.List.Nodup
import Mathlib.Data.List.Perm.Basic
import Mathlib.Data.List.Perm.Subperm
import Mathlib.Tactic.ByContra
import Mathlib.Tactic.Ring
import Mathlib.Tactic.Linarith
/-! Lemmas on pools. -/
namespace ELC.Pool

open Spec

theorem getNewIn_cases (size : Nat) : ∀ (pool : List Ment), (getNewIn size pool = none ∧ ∀ m ∈ pool, m.unused = []) ∨
    ∃ u m v i rest, pool = u ++ m :: v ∧ m.unused = i :: rest ∧
      getNewIn size pool = some (m.base + i * size, u ++ { m with unused := rest } :: v) := by
  intro pool
  induction pool with
  | nil => exact Or.inl ⟨rfl, fun m hm => by cases hm⟩
  | cons m ms ih =>
    rcases ih with ⟨h1, h2⟩ | ⟨u, m', v, i, rest, rfl, h2, h3⟩
    · cases hu : m.unused with
      | nil =>
        left
        refine ⟨by simp [getNewIn, h1, Ment.getNew, hu], fun m' hm' => ?_⟩
        rcases List.mem_cons.1 hm' with rfl | h
        · exact hu
        · exact h2 m' h
      | cons i rest =>
        right
        exact ⟨[], m, ms, i, rest, rfl, hu, by simp [getNewIn, h1, Ment.getNew, hu]⟩
    · right
      exact ⟨m :: u, m', v, i, rest, rfl, h2, by simp [getNewIn, h3]⟩

theorem available_append (size : Nat) (u v : List Ment) : available size (u ++ v) = available size u ++ available size v := by
  simp [available]

theorem slots_append (n size : Nat) (u v : List Ment) : slots n size (u ++ v) = slots n size u ++ slots n size v := by
  simp [slots]

theorem available_cons (size : Nat) (m : Ment) (v : List Ment) :
    available size (m :: v) = (m.unused.map fun i => m.base + i * size) ++ available size v := by
  simp [available]

theorem slots_cons (n size : Nat) (m : Ment) (v : List Ment) :
    slots n size (m :: v) = ((List.range n).map fun i => m.base + i * size) ++ slots n size v := by
  simp [slots]

/-- The invariant. -/
structure Inv (n size : Nat) (s : State) : Prop where
  all : (s.live ++ available size s.pool).Perm (slots n size s.pool)
  range : ∀ m ∈ s.pool, ∀ i ∈ m.unused, i < n
  apart : s.pool.Pairwise fun m m' => Apart (n * size) m.base m'.base

theorem slot_lt {n size i : Nat} (h : i < n) : i * size + size ≤ n * size := by
  have : (i + 1) * size ≤ n * size := Nat.mul_le_mul_right _ h
  rw [Nat.succ_mul] at this; exact this

theorem slot_apart {size i j : Nat} (h : i ≠ j) : i * size + size ≤ j * size ∨ j * size + size ≤ i * size := by
  rcases Nat.lt_or_gt_of_ne h with h | h
  · exact Or.inl (slot_lt h)
  · exact Or.inr (slot_lt h)

theorem mem_slots {n size : Nat} {pool : List Ment} {a : Nat} :
    a ∈ slots n size pool ↔ ∃ m ∈ pool, ∃ i < n, a = m.base + i * size := by
  simp only [slots, List.mem_flatMap, List.mem_map, List.mem_range]
  constructor
  · rintro ⟨m, hm, i, hi, rfl⟩; exact ⟨m, hm, i, hi, rfl⟩
  · rintro ⟨m, hm, i, hi, rfl⟩; exact ⟨m, hm, i, hi, rfl⟩

theorem slots_nodup {n size : Nat} (hs : 0 < size) : ∀ {pool : List Ment},
    (pool.Pairwise fun m m' => Apart (n * size) m.base m'.base) → (slots n size pool).Nodup := by
  intro pool
  induction pool with
  | nil => intro _; simp [slots]
  | cons m ms ih =>
    intro h
    rw [List.pairwise_cons] at h
    rw [slots_cons, List.nodup_append]
    refine ⟨?_, ih h.2, ?_⟩
    · refine List.Nodup.map_on ?_ List.nodup_range
      intro i _ j _ hij
      by_contra hne
      rcases slot_apart (size := size) hne with h | h <;> omega
    · rintro a ha b hb rfl
      rw [List.mem_map] at ha
      obtain ⟨i, hi, rfl⟩ := ha
      rw [List.mem_range] at hi
      obtain ⟨m', hm', j, hj, e⟩ := mem_slots.1 hb
      have := slot_lt (size := size) hi
      have := slot_lt (size := size) hj
      rcases h.1 m' hm' with h | h <;> omega

theorem inv_nodup {n size : Nat} (hs : 0 < size) {s : State} (inv : Inv n size s) :
    (s.live ++ available size s.pool).Nodup := inv.all.nodup_iff.2 (slots_nodup hs inv.apart)

theorem slots_same {n size : Nat} {u v : List Ment} {m m' : Ment} (h : m'.base = m.base) :
    slots n size (u ++ m' :: v) = slots n size (u ++ m :: v) := by
  simp [slots_append, slots_cons, h]

theorem apart_same {n size : Nat} {u v : List Ment} {m m' : Ment} (h : m'.base = m.base)
    (hp : (u ++ m :: v).Pairwise fun m m' => Apart (n * size) m.base m'.base) :
    (u ++ m' :: v).Pairwise fun m m' => Apart (n * size) m.base m'.base := by
  simp only [List.pairwise_append, List.pairwise_cons, List.mem_cons] at hp ⊢
  refine ⟨hp.1, ⟨?_, hp.2.1.2⟩, ?_⟩
  · intro x hx; rw [h]; exact hp.2.1.1 x hx
  · rintro x hx y (rfl | hy)
    · rw [h]; exact hp.2.2 x hx m (Or.inl rfl)
    · exact hp.2.2 x hx y (Or.inr hy)

theorem inv_alloc {n size : Nat} (hn : 0 < n) {s : State} (inv : Inv n size s) {b : Nat}
    (hv : ∀ m ∈ s.pool, Apart (n * size) b m.base) : ∃ s', exec n size s (.alloc b) = some s' ∧ Inv n size s' := by
  rcases getNewIn_cases size s.pool with ⟨h1, h2⟩ | ⟨u, m, v, i, rest, hp, hu, h3⟩
  · obtain ⟨k, rfl⟩ : ∃ k, n = k + 1 := ⟨n - 1, by omega⟩
    have hfr : (Ment.fresh (k + 1) b).unused = k :: (List.range k).reverse := by simp [Ment.fresh, List.range_succ]
    have hbase : (Ment.fresh (k + 1) b).base = b := rfl
    refine ⟨⟨s.pool ++ [⟨b, (List.range k).reverse⟩], (b + k * size) :: s.live⟩, ?_, ?_, ?_, ?_⟩
    · simp only [exec, getNew, h1, Ment.getNew, hfr, Option.map_some, hbase]
    · simp only [available_append, slots_append, available_cons, slots_cons]
      have h4 : ∀ {A B C D E : List Nat} {x : Nat}, (A ++ B).Perm C → (x :: D).Perm E → ((x :: A) ++ (B ++ (D ++ []))).Perm (C ++ (E ++ [])) := by
        intro A B C D E x p1 p2
        have : ((x :: A) ++ (B ++ (D ++ []))).Perm ((A ++ B) ++ (x :: D)) := by
          simp only [List.append_nil, List.cons_append]
          rw [← List.append_assoc]
          exact List.perm_middle.symm
        simpa using this.trans (p1.append p2)
      refine h4 inv.all ?_
      rw [List.range_succ, List.map_append]
      refine List.Perm.trans ?_ List.perm_append_comm
      simp only [List.map_cons, List.map_nil, List.cons_append, List.nil_append]
      exact List.Perm.cons _ ((List.reverse_perm _).map _)
    · intro m hm i hi
      rcases List.mem_append.1 hm with h | h
      · exact inv.range m h i hi
      · simp at h; subst h
        simp at hi; omega
    · rw [List.pairwise_append]
      refine ⟨inv.apart, by simp, ?_⟩
      intro m hm m' hm'
      simp at hm'; subst hm'
      rcases hv m hm with h | h
      · exact Or.inr h
      · exact Or.inl h
  · refine ⟨⟨u ++ { m with unused := rest } :: v, (m.base + i * size) :: s.live⟩, ?_, ?_, ?_, ?_⟩
    · simp only [exec, getNew, h3, Option.map_some]
    · dsimp only
      rw [slots_same (m := m) (m' := { m with unused := rest }) rfl, ← hp]
      refine List.Perm.trans ?_ inv.all
      rw [hp]
      simp only [available_append, available_cons, hu, List.map_cons]
      simp only [List.cons_append]
      have h5 : ∀ {L A R : List Nat} {x : Nat}, (x :: (L ++ (A ++ R))).Perm (L ++ (A ++ x :: R)) := by
        intro L A R x
        rw [← List.append_assoc, ← List.append_assoc]
        exact List.perm_middle.symm
      exact h5
    · intro m' hm' j hj
      have hm'' : m' ∈ u ∨ m' = { m with unused := rest } ∨ m' ∈ v := by simpa using hm'
      rcases hm'' with h | h | h
      · exact inv.range m' (by rw [hp]; simp [h]) j hj
      · subst h
        exact inv.range m (by rw [hp]; simp) j (by rw [hu]; exact List.mem_cons_of_mem _ hj)
      · exact inv.range m' (by rw [hp]; simp [h]) j hj
    · exact apart_same (m := m) rfl (by rw [← hp]; exact inv.apart)

theorem free_first {n size a : Nat} : ∀ {u : List Ment} {m : Ment} {v : List Ment}, (∀ x ∈ u, x.inPool n a = false) → m.inPool n a = true →
    m.unused.length < n → free n size a (u ++ m :: v) = some (u ++ { m with unused := (a - m.base) / size :: m.unused } :: v) := by
  intro u
  induction u with
  | nil => intro m v _ h2 h3; simp [free, h2, Ment.useEnd, h3]
  | cons x u ih =>
    intro m v h1 h2 h3
    have := ih (v := v) (fun y hy => h1 y (List.mem_cons_of_mem _ hy)) h2 h3
    simp [free, h1 x (List.mem_cons_self ..), this]

theorem free_none {n size a : Nat} : ∀ {pool : List Ment}, (∀ x ∈ pool, x.inPool n a = false) → free n size a pool = none := by
  intro pool
  induction pool with
  | nil => intro _; rfl
  | cons x u ih =>
    intro h
    simp [free, h x (List.mem_cons_self ..), ih (fun y hy => h y (List.mem_cons_of_mem _ hy))]

/-- A block that contains the address recognises it, or none does. -/
theorem inPool_unique {n size : Nat} (hs : 0 < size) {m m' : Ment} {i : Nat} (hi : i < n) (hap : Apart (n * size) m.base m'.base) :
    m'.inPool n (m.base + i * size) = false := by
  have h1 := slot_lt (size := size) hi
  have h2 : n ≤ n * size := Nat.le_mul_of_pos_right _ hs
  unfold Ment.inPool
  rcases hap with h | h
  · have : ¬ m'.base ≤ m.base + i * size := by omega
    simp [this]
  · have : ¬ m.base + i * size < m'.base + (n - 1) := by omega
    simp [this]

theorem inv_free {n size : Nat} (hs : 0 < size) {s : State} (inv : Inv n size s) {a : Nat} (ha : a ∈ s.live) :
    ((∃ m ∈ s.pool, m.base ≤ a ∧ a < m.base + (n - 1)) → ∃ s', exec n size s (.free a) = some s' ∧ Inv n size s') ∧
    (¬ (∃ m ∈ s.pool, m.base ≤ a ∧ a < m.base + (n - 1)) → exec n size s (.free a) = none) := by
  constructor
  · rintro ⟨m0, hm0, h1, h2⟩
    obtain ⟨m, hm, i, hi, he⟩ := mem_slots.1 (inv.all.subset (List.mem_append_left _ ha))
    obtain ⟨u, v, hp⟩ := List.append_of_mem hm
    have hap := inv.apart
    rw [hp] at hap
    simp only [List.pairwise_append, List.pairwise_cons, List.mem_cons] at hap
    have hu : ∀ x ∈ u, x.inPool n a = false := by
      intro x hx
      rw [he]
      exact inPool_unique hs hi (by rcases hap.2.2 x hx m (Or.inl rfl) with h | h; exact Or.inr h; exact Or.inl h)
    have hv : ∀ x ∈ v, x.inPool n a = false := by
      intro x hx
      rw [he]
      exact inPool_unique hs hi (hap.2.1.1 x hx)
    have hin0 : m0.inPool n a = true := by simp [Ment.inPool, h1, h2]
    have hin : m.inPool n a = true := by
      rw [hp] at hm0
      have : m0 ∈ u ∨ m0 = m ∨ m0 ∈ v := by simpa using hm0
      rcases this with h | h | h
      · rw [hu m0 h] at hin0; cases hin0
      · rw [← h]; exact hin0
      · rw [hv m0 h] at hin0; cases hin0
    have hidx : (a - m.base) / size = i := by
      rw [he, Nat.add_sub_cancel_left, Nat.mul_div_cancel _ hs]
    have hnd := inv_nodup hs inv
    rw [hp] at hnd
    simp only [available_append, available_cons] at hnd
    have hnd' : (m.unused.map fun i => m.base + i * size).Nodup := by
      rw [List.nodup_append, List.nodup_append, List.nodup_append] at hnd
      exact hnd.2.1.2.1.1
    have hni : i ∉ m.unused := by
      intro hmem
      rw [List.nodup_append] at hnd
      exact hnd.2.2 a ha (m.base + i * size) (by
        simp only [List.mem_append, List.mem_map]; right; left; exact ⟨i, hmem, rfl⟩) he
    have hun : m.unused.Nodup := List.Nodup.of_map _ hnd'
    have hlen : m.unused.length < n := by
      have hsub : (i :: m.unused).Subperm (List.range n) := by
        refine List.subperm_of_subset (List.nodup_cons.2 ⟨hni, hun⟩) ?_
        intro j hj
        rw [List.mem_range]
        rcases List.mem_cons.1 hj with rfl | h
        · exact hi
        · exact inv.range m hm j h
      have := hsub.length_le
      simp at this; omega
    refine ⟨⟨u ++ { m with unused := i :: m.unused } :: v, s.live.erase a⟩, ?_, ?_, ?_, ?_⟩
    · simp only [exec, hp, free_first hu hin hlen, hidx, Option.map_some]
    · dsimp only
      rw [slots_same (m := m) (m' := { m with unused := i :: m.unused }) rfl, ← hp]
      refine List.Perm.trans ?_ inv.all
      rw [hp]
      simp only [available_append, available_cons, List.map_cons, List.cons_append]
      have hperm := List.perm_cons_erase ha
      rw [← he]
      have h3 : ∀ {A B C L E : List Nat}, L.Perm (a :: E) → (E ++ (A ++ a :: (B ++ C))).Perm (L ++ (A ++ (B ++ C))) := by
        intro A B C L E hL
        have h4 : (E ++ (A ++ a :: (B ++ C))).Perm ((a :: E) ++ (A ++ (B ++ C))) := by
          rw [← List.append_assoc]
          refine List.perm_middle.trans ?_
          simp
        exact h4.trans (hL.symm.append_right _)
      exact h3 hperm
    · intro m' hm' j hj
      have hm'' : m' ∈ u ∨ m' = { m with unused := i :: m.unused } ∨ m' ∈ v := by simpa using hm'
      rcases hm'' with h | h | h
      · exact inv.range m' (by rw [hp]; simp [h]) j hj
      · subst h
        rcases List.mem_cons.1 hj with rfl | h
        · exact hi
        · exact inv.range m hm j h
      · exact inv.range m' (by rw [hp]; simp [h]) j hj
    · exact apart_same (m := m) rfl (by rw [← hp]; exact inv.apart)
  · intro h
    rw [exec, free_none]
    · rfl
    · intro x hx
      by_contra hc
      rw [Bool.not_eq_false, Ment.inPool, Bool.and_eq_true, decide_eq_true_eq, decide_eq_true_eq] at hc
      exact h ⟨x, hx, hc⟩

theorem shrink_perm {n size : Nat} : ∀ {pool : List Ment}, (∀ m ∈ pool, m.unused.Nodup ∧ ∀ i ∈ m.unused, i < n) →
    ∃ rest, (available size pool).Perm (rest ++ available size (shrink n pool)) ∧
      (slots n size pool).Perm (rest ++ slots n size (shrink n pool)) := by
  intro pool
  induction pool with
  | nil => intro _; exact ⟨[], by simp [shrink, available], by simp [shrink, slots]⟩
  | cons m ms ih =>
    intro h
    obtain ⟨rest, h1, h2⟩ := ih (fun x hx => h x (List.mem_cons_of_mem _ hx))
    obtain ⟨hnd, hr⟩ := h m (List.mem_cons_self ..)
    by_cases he : m.empty n
    · have hperm : m.unused.Perm (List.range n) := by
        refine List.Subperm.perm_of_length_le (List.subperm_of_subset hnd fun i hi => List.mem_range.2 (hr i hi)) ?_
        simp only [Ment.empty, decide_eq_true_eq] at he
        rw [he]; simp
      refine ⟨((List.range n).map fun i => m.base + i * size) ++ rest, ?_, ?_⟩
      · simp only [shrink, List.filter_cons, he, Bool.not_true, Bool.false_eq_true, if_false]
        rw [available_cons, List.append_assoc]
        exact (hperm.map _).append h1
      · simp only [shrink, List.filter_cons, he, Bool.not_true, Bool.false_eq_true, if_false]
        rw [slots_cons, List.append_assoc]
        exact h2.append_left _
    · refine ⟨rest, ?_, ?_⟩
      · simp only [shrink, List.filter_cons, he, Bool.not_false, if_true]
        rw [available_cons, available_cons]
        refine (h1.append_left _).trans ?_
        rw [← List.append_assoc, ← List.append_assoc]
        exact List.perm_append_comm.append_right _
      · simp only [shrink, List.filter_cons, he, Bool.not_false, if_true]
        rw [slots_cons, slots_cons]
        refine (h2.append_left _).trans ?_
        rw [← List.append_assoc, ← List.append_assoc]
        exact List.perm_append_comm.append_right _

theorem unused_nodup {n size : Nat} (hs : 0 < size) {s : State} (inv : Inv n size s) : ∀ m ∈ s.pool, m.unused.Nodup := by
  intro m hm
  obtain ⟨u, v, hp⟩ := List.append_of_mem hm
  have hnd := inv_nodup hs inv
  rw [hp] at hnd
  simp only [available_append, available_cons] at hnd
  rw [List.nodup_append, List.nodup_append, List.nodup_append] at hnd
  exact List.Nodup.of_map _ hnd.2.1.2.1.1

theorem inv_shrink {n size : Nat} (hs : 0 < size) {s : State} (inv : Inv n size s) : Inv n size ⟨shrink n s.pool, s.live⟩ := by
  obtain ⟨rest, h1, h2⟩ := shrink_perm (size := size) (fun m hm => ⟨unused_nodup hs inv m hm, inv.range m hm⟩)
  refine ⟨?_, fun m hm => inv.range m (List.mem_filter.1 hm).1, inv.apart.filter _⟩
  have h3 : (rest ++ (s.live ++ available size (shrink n s.pool))).Perm (rest ++ slots n size (shrink n s.pool)) := by
    refine List.Perm.trans ?_ (inv.all.trans h2)
    refine List.Perm.trans ?_ (h1.append_left _).symm
    rw [← List.append_assoc, ← List.append_assoc]
    exact List.perm_append_comm.append_right _
  exact (List.perm_append_left_iff _).1 h3

end ELC.Pool
