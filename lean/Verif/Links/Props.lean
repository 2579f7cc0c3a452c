import Verif.Links.Lemmas
/-! Lists: C52. -/
namespace ELC.Links

open Spec

theorem init_holds : ∃ s, init = some s ∧ Holds s [] := by
  refine ⟨_, rfl, ⟨rfl, rfl, trivial⟩, by decide, rfl, rfl⟩

theorem shows_of_holds {s : Store} {l : List Nat} (h : Holds s l) : Shows s l := by
  have hnd := h.nodup
  simp only [List.cons_append, List.nodup_cons, List.mem_append, List.nodup_append, List.mem_singleton, not_or] at hnd
  have h1 : 1 ∉ l := fun h => hnd.2.2.2 1 h 1 rfl rfl
  refine ⟨fun fuel hf => ?_, fun fuel hf => walkBackFrom_linked hf h.linked hnd.1.1, ?_⟩
  · obtain ⟨j, e1, e2⟩ := walkFrom_linked hf h.linked h1
    rw [walk, e1]; exact e2
  · cases l with
    | nil => rw [empty, h.linked.1]; rfl
    | cons a l =>
      have ha : next s 0 = some a := h.linked.1
      simp only [List.mem_cons, not_or] at h1
      simp [empty, ha, Ne.symm h1.1]

theorem run_holds : ∀ (ops : List Op) {s : Store} {l : List Nat}, Holds s l → Valid l ops →
    ∃ s', run s ops = some s' ∧ Holds s' (ops.foldl after l) := by
  intro ops
  induction ops with
  | nil => intro s l h _; exact ⟨s, rfl, h⟩
  | cons op ops ih =>
    intro s l h hv
    have step : ∃ s1, exec s op = some s1 ∧ Holds s1 (after l op) := by
      cases op with
      | add n => exact holds_add h hv.1.1 hv.1.2
      | destroy n =>
        obtain ⟨u, v, rfl⟩ := List.append_of_mem (show n ∈ l from hv.1)
        obtain ⟨s1, e1, h1, _⟩ := holds_destroy h
        refine ⟨s1, e1, ?_⟩
        have hnd := h.nodup
        simp only [List.cons_append, List.nodup_cons, List.mem_append, List.nodup_append, List.mem_cons] at hnd
        have hu : n ∉ u := fun hn => hnd.2.1.2.2 n hn n (Or.inl rfl) rfl
        have hv' : n ∉ v := hnd.2.1.2.1.1
        simp only [after, List.filter_append, List.filter_cons]
        rw [filter_ne_of_not_mem hu, filter_ne_of_not_mem hv']
        simpa using h1
    obtain ⟨s1, e1, h1⟩ := step
    obtain ⟨s2, e2, h2⟩ := ih h1 hv.2
    exact ⟨s2, by rw [run, e1]; exact e2, h2⟩

/-- C52: after any history of nodes added and destroyed, walking the list visits exactly the nodes alive in the order they were
added (backwards in the opposite order), and the list is empty when none is alive.  No link of a destroyed node is touched. -/
theorem list_shows_live {ops : List Op} (hv : Valid [] ops) : ∃ s0 s, init = some s0 ∧ run s0 ops = some s ∧ Shows s (live ops) := by
  obtain ⟨s0, e0, h0⟩ := init_holds
  obtain ⟨s, e, h⟩ := run_holds ops h0 hv
  exact ⟨s0, s, e0, e, shows_of_holds h⟩

/-- C52: nodes may be destroyed during a walk: it visits the others all the same, and exactly those not destroyed remain. -/
theorem sweep_shows {ops : List Op} (hv : Valid [] ops) (p : Nat → Bool) : ∃ s0 s, init = some s0 ∧ run s0 ops = some s ∧
    ∀ fuel, (live ops).length < fuel → ∃ s', sweep p s fuel = some s' ∧ Shows s' ((live ops).filter fun n => !p n) := by
  obtain ⟨s0, e0, h0⟩ := init_holds
  obtain ⟨s, e, h⟩ := run_holds ops h0 hv
  refine ⟨s0, s, e0, e, fun fuel hf => ?_⟩
  have key : ∀ (v u : List Nat) (s : Store) (fuel : Nat), Holds s (u ++ v) → v.length < fuel → ∀ i, (v ++ [1]).head? = some i →
      ∃ s', sweepFrom p fuel s i = some s' ∧ Holds s' (u ++ v.filter fun n => !p n) := by
    intro v
    induction v with
    | nil =>
      intro u s fuel h hf i hi
      obtain ⟨f, rfl⟩ : ∃ f, fuel = f + 1 := ⟨fuel - 1, by omega⟩
      simp at hi; subst hi
      exact ⟨s, by rw [sweepFrom, h.around]; rfl, by simpa using h⟩
    | cons a v ih =>
      intro u s fuel h hf i hi
      obtain ⟨f, rfl⟩ : ∃ f, fuel = f + 1 := ⟨fuel - 1, by omega⟩
      simp at hi; subst hi
      simp only [List.length_cons] at hf
      have hl := h.linked
      rw [show 0 :: (u ++ a :: v) ++ [1] = (0 :: u) ++ a :: (v ++ [1]) by simp, linked_append] at hl
      obtain ⟨j, hj⟩ : ∃ j, (v ++ [1]).head? = some j := by cases v <;> exact ⟨_, rfl⟩
      have hn : next s a = some j := by
        have h2 := hl.2
        cases v with
        | nil => simp at hj; subst hj; exact h2.1
        | cons c v => simp at hj; subst hj; exact h2.1
      have ha1 : a ≠ 1 := by
        have := h.nodup
        rintro rfl
        rw [show 0 :: (u ++ 1 :: v) ++ [1] = (0 :: u) ++ 1 :: (v ++ [1]) by simp] at this
        simp [List.nodup_append] at this
      rw [sweepFrom, hn, Option.bind_some, if_neg ha1]
      by_cases hp : p a
      · obtain ⟨s1, e1, h1, _⟩ := holds_destroy h
        rw [if_pos hp, e1, Option.bind_some]
        obtain ⟨s2, e2, h2⟩ := ih u s1 f h1 (by omega) j hj
        exact ⟨s2, e2, by simpa [List.filter_cons, hp] using h2⟩
      · rw [if_neg hp]
        obtain ⟨s2, e2, h2⟩ := ih (u ++ [a]) s f (by simpa using h) (by omega) j hj
        exact ⟨s2, e2, by simpa [List.filter_cons, hp] using h2⟩
  obtain ⟨j, hj⟩ : ∃ j, (live ops ++ [1]).head? = some j := by cases live ops <;> exact ⟨_, rfl⟩
  have hn : next s 0 = some j := by
    have h2 := h.linked
    unfold live at hj
    generalize List.foldl after [] ops = l at h2 hj
    cases l with
    | nil => simp at hj; subst hj; exact h2.1
    | cons c v => simp at hj; subst hj; exact h2.1
  obtain ⟨s', e1, e2⟩ := key (live ops) [] s fuel h hf j hj
  exact ⟨s', by rw [sweep, hn]; exact e1, shows_of_holds e2⟩

/-! ### a history: three nodes added, the middle and then the first destroyed, another one added -/

def history : List Op := [.add 2, .add 3, .add 4, .destroy 3, .destroy 2, .add 5]

example : Valid [] history ∧ live history = [4, 5] := by simp [history, Valid, ValidOp, after, live]
example : ((init.bind (run · history)).bind (walk · 9)) = some [4, 5] := by decide
example : ((init.bind (run · history)).bind fun s => (sweep (· = 4) s 9).bind (walkBack · 9)) = some [5] := by decide

end ELC.Links
