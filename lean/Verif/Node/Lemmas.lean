import Verif.Node.Spec
/-!
Lemmas on comparisons of nodes.
-/
namespace ELC.Node
open LogicalBool (ofBool neither either unknown)

theorem and_comm' (a b : LogicalBool) : a.and b = b.and a := by
  simp [LogicalBool.and, Bool.and_comm, Bool.or_comm]

theorem both_comm (a b : Option LogicalBool) : both a b = both b a := by
  cases a <;> cases b <;> simp [both, and_comm']

theorem ofBool_and (a b : Bool) : (ofBool a).and (ofBool b) = ofBool (a && b) := by
  cases a <;> cases b <;> rfl

theorem both_ofBool (a b : Bool) : both (some (ofBool a)) (some (ofBool b)) = some (ofBool (a && b)) := by
  simp [both, ofBool_and]

@[simp] theorem ofBool_toBool (a : Bool) : (ofBool a).toBool = a := by cases a <;> rfl
@[simp] theorem ofBool_not (a : Bool) : (ofBool a).not = ofBool (!a) := by cases a <;> rfl

theorem yes_ofBool (a : Bool) : Yes (some (ofBool a)) ↔ a = true := by
  constructor
  · rintro ⟨b, h, h'⟩; cases h; simpa using h'
  · rintro rfl; exact ⟨_, rfl, rfl⟩

theorem Same.refl (E : Env) (h : Heap) (x : Ref) : Same E h x x := .inl rfl

theorem Same.symm {E : Env} (L : Lawful E) {h : Heap} {x y : Ref} (s : Same E h x y) : Same E h y x := by
  rcases s with rfl | ⟨i, j, T, a, b, rfl, rfl, h1, h2, h3, h4⟩
  · exact .inl rfl
  · exact .inr ⟨j, i, T, b, a, rfl, rfl, h2, h1, h3, L.symm _ _ _ h4⟩

theorem Same.trans {E : Env} (L : Lawful E) {h : Heap} {x y z : Ref} (s : Same E h x y) (s' : Same E h y z) :
    Same E h x z := by
  rcases s with rfl | ⟨i, j, T, a, b, rfl, rfl, h1, h2, h3, h4⟩
  · exact s'
  · rcases s' with rfl | ⟨i', k, T', a', b', h5, rfl, h6, h7, h8, h9⟩
    · exact .inr ⟨i, j, T, a, b, rfl, rfl, h1, h2, h3, h4⟩
    · cases h5
      rw [h2] at h6; cases h6
      exact .inr ⟨i, k, T, a, b', rfl, rfl, h1, h7, h3, L.trans _ _ _ _ h4 h9⟩

theorem Mixed.symm {E : Env} {h : Heap} {x y : Ref} (m : Mixed E h x y) : Mixed E h y x := by
  obtain ⟨i, j, T, U, a, b, rfl, rfl, h1, h2, h3, h4⟩ := m
  exact ⟨j, i, U, T, b, a, rfl, rfl, h2, h1, fun e => h3 e.symm, h4.symm⟩

open Classical in
/-- Each half of the comparison: undefined only for two types, else whether they are the same. -/
theorem wasEq_eq {E : Env} (L : Lawful E) {h : Heap} {x y : Ref} (hm : ¬ Mixed E h x y) :
    wasEq E h x y = some (ofBool (decide (Same E h x y))) := by
  have key : (∀ i T a, x = .node i → h.obj i = .bin T a → E.eqAble T = false) → (Same E h x y ↔ x = y) := by
    intro hk
    constructor
    · rintro (e | ⟨i, j, T, a, b, e1, e2, h1, h2, h3, h4⟩)
      · exact e
      · rw [hk i T a e1 h1] at h3; cases h3
    · exact fun e => .inl e
  have plain : (∀ i T a, x = .node i → h.obj i = .bin T a → E.eqAble T = false) →
      some (ofBool (decide (x = y))) = some (ofBool (decide (Same E h x y))) := by
    intro hk
    simp only [key hk]
  unfold wasEq
  split
  · rename_i i
    split
    · rename_i T a hb
      split
      · rename_i hT
        match y with
        | .node j =>
          dsimp only
          split
          · rename_i U b hU
            split
            · rename_i e; subst e
              congr 2
              rw [Bool.eq_iff_iff, decide_eq_true_iff]
              constructor
              · intro e; exact .inr ⟨i, j, T, a, b, rfl, rfl, hb, hU, hT, e⟩
              · rintro (e | ⟨i', j', T', a', b', e1, e2, h1, h2, h3, h4⟩)
                · cases e; rw [hb] at hU; cases hU; exact L.refl _ _
                · cases e1; cases e2
                  rw [hb] at h1; cases h1
                  rw [hU] at h2; cases h2
                  exact h4
            · rename_i e
              exact absurd ⟨i, j, T, U, a, b, rfl, rfl, hb, hU, e, .inl hT⟩ hm
          · rename_i hn
            congr 2
            rw [eq_comm, decide_eq_false_iff_not]
            rintro (e | ⟨i', j', T', a', b', e1, e2, h1, h2, h3, h4⟩)
            · cases e; exact hn _ _ hb
            · cases e2; exact hn _ _ h2
        | .void | .nil | .t =>
          dsimp only
          congr 2
          rw [eq_comm, decide_eq_false_iff_not]
          rintro (e | ⟨i', j', T', a', b', e1, e2, h1, h2, h3, h4⟩)
          · cases e
          · cases e2
      · rename_i hT
        apply plain
        intro i' T' a' e h1
        cases e
        rw [hb] at h1; cases h1
        simpa using hT
    · rename_i hn
      apply plain
      intro i' T' a' e h1
      cases e
      exact absurd h1 (hn _ _)
  · rename_i hn
    apply plain
    intro i' T' a' e h1
    exact absurd e (hn _)

open Classical in
theorem eqWith_eq {E : Env} (L : Lawful E) {h : Heap} {x y : Ref} (hm : ¬ Mixed E h x y) :
    eqWith E h x y = some (ofBool (decide (Same E h x y))) := by
  have e1 := wasEq_eq L hm
  have e2 := wasEq_eq L (fun m => hm (Mixed.symm m))
  have e3 : Same E h y x ↔ Same E h x y := ⟨Same.symm L, Same.symm L⟩
  simp only [e3] at e2
  unfold eqWith
  split
  · exact e2
  · split
    · exact e1
    · rw [e1, e2, both_ofBool, Bool.and_self]

theorem eqWith_mixed {E : Env} {h : Heap} {x y : Ref} (hm : Mixed E h x y) : eqWith E h x y = none := by
  obtain ⟨i, j, T, U, a, b, rfl, rfl, h1, h2, h3, h4⟩ := hm
  have h3' : ¬ U = T := fun e => h3 e.symm
  simp only [eqWith, level, Nat.lt_irrefl, if_false, wasEq, h1, h2, h3, h3']
  rcases h4 with h4 | h4
  · simp [h4, both]
  · simp only [h4, if_true, both]
    cases (if E.eqAble T = true then none else _ : Option LogicalBool) <;> rfl

theorem eqWith_symm (E : Env) (h : Heap) (x y : Ref) : eqWith E h x y = eqWith E h y x := by
  unfold eqWith
  by_cases h1 : level x < level y
  · have h2 : ¬ level y < level x := by omega
    simp [h1, h2]
  · by_cases h2 : level y < level x
    · simp [h1, h2]
    · simp only [h1, h2, if_false]; exact both_comm _ _

theorem equalWith_symm (E : Env) (h : Heap) (x y : Ref) : equalWith E h x y = equalWith E h y x := by
  unfold equalWith
  by_cases h1 : level x < level y
  · have h2 : ¬ level y < level x := by omega
    simp [h1, h2]
  · by_cases h2 : level y < level x
    · simp [h1, h2]
    · simp only [h1, h2, if_false]; exact both_comm _ _

theorem yes_eqWith {E : Env} (L : Lawful E) {h : Heap} {x y : Ref} :
    Yes (eqWith E h x y) ↔ ¬ Mixed E h x y ∧ Same E h x y := by
  classical
  by_cases hm : Mixed E h x y
  · rw [eqWith_mixed hm]
    simp [Yes, hm]
  · rw [eqWith_eq L hm, yes_ofBool]
    simp [hm]

theorem Same.not_mixed {E : Env} {h : Heap} {x y : Ref} (s : Same E h x y) : ¬ Mixed E h x y := by
  rintro ⟨i, j, T, U, a, b, rfl, rfl, h1, h2, h3, h4⟩
  rcases s with e | ⟨i', j', T', a', b', e1, e2, g1, g2, g3, g4⟩
  · cases e; rw [h1] at h2; cases h2; exact h3 rfl
  · cases e1; cases e2
    rw [h1] at g1; cases g1
    rw [h2] at g2; cases g2
    exact h3 rfl

end ELC.Node
