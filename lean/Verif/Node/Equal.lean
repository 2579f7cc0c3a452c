import Verif.Node.Maps
/-!
Equality of nodes.
-/
namespace ELC.Node
open LogicalBool (ofBool neither either unknown)

variable {E : Env} {h : Heap}

theorem not_mixed_left {x y : Ref} (hx : ∀ i, x ≠ .node i) : ¬ Mixed E h x y := by
  rintro ⟨i, _, _, _, _, _, rfl, _⟩; exact hx i rfl

theorem yes_both {a b : Option LogicalBool} : Yes (both a b) ↔ Yes a ∧ Yes b := by
  cases a with
  | none => simp [both, Yes]
  | some a =>
    cases b with
    | none => simp [both, Yes]
    | some b =>
      obtain ⟨a1, a2, a3⟩ := a
      obtain ⟨b1, b2, b3⟩ := b
      simp only [both, Option.bind_some, Option.map_some, LogicalBool.and, Yes, LogicalBool.toBool, Option.some.injEq,
        exists_eq_left']
      cases a1 <;> cases a3 <;> cases b1 <;> cases b3 <;> simp

/-- One half of the comparison of two nodes. -/
theorem yes_wasEqual (L : Lawful E) (O : OneType E h) (M : MapsDistinct E h) (i j : Nat) :
    Yes (wasEqual E h (.node i) (.node j)) ↔
      match h.obj i, h.obj j with
      | .pair k a d, .pair k' a' d' => k = k' ∧ Same E h a a' ∧ Same E h d d'
      | .common m, .common n => SameMap E h m n
      | .bin _ _, .bin _ _ => Same E h (.node i) (.node j)
      | .func f, .func g => E.funcEq f g = some true
      | _, _ => False := by
  classical
  have no : Yes (some (ofBool false)) ↔ False := by rw [yes_ofBool]; simp
  unfold wasEqual
  match hi : h.obj i with
  | .pair k a d =>
    match hj : h.obj j with
    | .pair k' a' d' =>
      simp only [hi, hj]
      by_cases e : k = k'
      · simp only [e, if_true, eqWith_eq L (O _ _), both_ofBool, yes_ofBool, true_and, Bool.and_eq_true, decide_eq_true_eq]
      · simp only [e, if_false, no, false_and]
    | .common _ | .bin _ _ | .func _ => simp only [hi, hj, no]
  | .common m =>
    match hj : h.obj j with
    | .common n =>
      obtain ⟨b, h1, h2⟩ := mapEq_iff L O (M i m hi) (M j n hj)
      simp only [hi, hj, h1, Option.map_some, yes_ofBool, h2]
    | .pair _ _ _ | .bin _ _ | .func _ => simp only [hi, hj, no]
  | .bin T a =>
    simp only [hi, wasEq_eq L (O _ _), yes_ofBool, decide_eq_true_eq]
    match hj : h.obj j with
    | .bin U b => simp only [hj]
    | .pair _ _ _ | .common _ | .func _ =>
      simp only [hj, iff_false]
      rintro (e | ⟨i', j', T', a', b', e1, e2, g1, g2, g3, g4⟩)
      · cases e; rw [hi] at hj; cases hj
      · cases e2; rw [hj] at g2; cases g2
  | .func f =>
    match hj : h.obj j with
    | .func g =>
      simp only [hi, hj]
      match hf : E.funcEq f g with
      | some b => simp only [hf, yes_ofBool, Option.some.injEq]
      | none => simp [hf, Yes, unknown, LogicalBool.toBool]
    | .pair _ _ _ | .common _ | .bin _ _ => simp only [hi, hj, no]

/-- The comparison of any two nodes. -/
theorem yes_equalWith (L : Lawful E) (O : OneType E h) (M : MapsDistinct E h) (x y : Ref) :
    Yes (equalWith E h x y) ↔ Equal E h x y := by
  classical
  have no : ¬ Yes (some (ofBool false)) := by rw [yes_ofBool]; simp
  have yes : Yes (some (ofBool true)) := by rw [yes_ofBool]
  have voidEq : ∀ y, eqWith E h .void y = some (ofBool (decide (Ref.void = y))) := by
    intro y
    rw [eqWith_eq L (not_mixed_left (by simp))]
    congr 2
    rw [decide_eq_decide]
    constructor
    · intro s; exact (Same.void_iff.1 (s.symm L)).symm
    · exact fun e => .inl e
  have voidYes : ∀ y, Yes (wasEqual E h .void y) ↔ y = .void := by
    intro y
    simp only [wasEqual, voidEq, Option.map_some, ofBool_toBool, decide_eq_true_eq]
    by_cases e : Ref.void = y
    · simp [e.symm, Yes, either, LogicalBool.toBool]
    · simp only [e, if_false]
      constructor
      · rintro ⟨b, h1, h2⟩; cases h1; cases h2
      · intro e'; exact absurd e'.symm e
  match x, y with
  | .void, .void =>
    simp only [equalWith, level, Nat.lt_irrefl, if_false, yes_both, voidYes, Equal, and_self]
  | .void, .nil | .void, .t | .void, .node _ =>
    simp [equalWith, level, voidYes, Equal]
  | .nil, .void | .t, .void | .node _, .void =>
    simp [equalWith, level, voidYes, Equal]
  | .nil, .nil | .t, .t | .t, .node _ | .node _, .t =>
    simp [equalWith, level, wasEqual, truth, Equal, both_ofBool, yes]
  | .nil, .t | .t, .nil | .nil, .node _ | .node _, .nil =>
    simp [equalWith, level, wasEqual, truth, Equal, both_ofBool, no]
  | .node i, .node j =>
    have e1 := yes_wasEqual L O M i j
    have e2 := yes_wasEqual L O M j i
    simp only [equalWith, level, Nat.lt_irrefl, if_false, yes_both, e1, e2, Equal, EqualNodes]
    match hi : h.obj i with
    | .pair k a d =>
      match hj : h.obj j with
      | .pair k' a' d' =>
        simp only
        constructor
        · exact fun H => H.1
        · exact fun H => ⟨H, H.1.symm, H.2.1.symm L, H.2.2.symm L⟩
      | .common _ | .bin _ _ | .func _ => simp only [false_and]
    | .common m =>
      match hj : h.obj j with
      | .common n =>
        simp only
        constructor
        · exact fun H => H.1
        · exact fun H => ⟨H, fun k v w a b => (H k w v b a).symm L⟩
      | .pair _ _ _ | .bin _ _ | .func _ => simp only [false_and]
    | .bin T a =>
      match hj : h.obj j with
      | .bin U b =>
        simp only
        exact ⟨fun H => H.1, fun H => ⟨H, H.symm L⟩⟩
      | .pair _ _ _ | .common _ | .func _ => simp only [false_and]
    | .func f =>
      match hj : h.obj j with
      | .func g => simp only
      | .pair _ _ _ | .common _ | .bin _ _ => simp only [false_and]

/-- The comparison of two nodes is defined. -/
theorem equalWith_defined (L : Lawful E) (O : OneType E h) (M : MapsDistinct E h) (x y : Ref) :
    (equalWith E h x y).isSome := by
  have w : ∀ x y, (wasEqual E h x y).isSome := by
    intro x y
    unfold wasEqual
    match x with
    | .void => simp [eqWith_eq L (O _ _)]
    | .nil => simp
    | .t => simp
    | .node i =>
      match hi : h.obj i with
      | .pair k a d =>
        simp only [hi]
        split
        · split
          · split
            · rename_i e; simp only [eqWith_eq L (O _ _), both_ofBool, Option.isSome_some]
            · rfl
          · rfl
        · rfl
      | .common m =>
        simp only [hi]
        split
        · rename_i j
          split
          · rename_i n hj
            obtain ⟨b, h1, h2⟩ := mapEq_iff L O (M i m hi) (M j n hj)
            simp [h1]
          · rfl
        · rfl
      | .bin T a => simp only [hi, wasEq_eq L (O _ _), Option.isSome_some]
      | .func f =>
        simp only [hi]
        split
        · split
          · split <;> rfl
          · rfl
        · rfl
  have b : ∀ a b : Option LogicalBool, a.isSome → b.isSome → (both a b).isSome := by
    intro a b ha hb
    cases a with
    | none => cases ha
    | some a => cases b with
      | none => cases hb
      | some b => rfl
  unfold equalWith
  split
  · exact w _ _
  · split
    · exact w _ _
    · exact b _ _ (w _ _) (w _ _)

theorem SameMap.refl (m : List (Ref × Ref)) : SameMap E h m m := fun _ _ _ a b => .inl (a.unique b)

theorem EqualNodes.refl (F : FuncLawful E) (i : Nat) : EqualNodes E h i i := by
  unfold EqualNodes
  split
  · rename_i h1 h2; rw [h1] at h2; cases h2; exact ⟨rfl, .refl _ _ _, .refl _ _ _⟩
  · rename_i h1 h2; rw [h1] at h2; cases h2; exact .refl _
  · exact .refl _ _ _
  · rename_i h1 h2; rw [h1] at h2; cases h2; exact ⟨F.refl _, F.refl _⟩
  · rename_i h1 h2 h3 h4
    match hi : h.obj i with
    | .pair k a d => exact h1 _ _ _ _ _ _ hi hi
    | .common m => exact h2 _ _ hi hi
    | .bin T a => exact h3 _ _ _ _ hi hi
    | .func f => exact h4 _ _ hi hi

theorem EqualNodes.trans (L : Lawful E) (F : FuncLawful E) {i j k : Nat} (a : EqualNodes E h i j)
    (b : EqualNodes E h j k) : EqualNodes E h i k := by
  unfold EqualNodes at *
  match hi : h.obj i, hj : h.obj j, hk : h.obj k with
  | .pair _ _ _, .pair _ _ _, .pair _ _ _ =>
    simp only [hi, hj, hk] at a b ⊢
    exact ⟨a.1.trans b.1, a.2.1.trans L b.2.1, a.2.2.trans L b.2.2⟩
  | .common m, .common n, .common l =>
    simp only [hi, hj, hk] at a b ⊢
    intro q v w g1 g2
    obtain ⟨u, hu⟩ := gives_total (E := E) (h := h) q n
    exact (a q v u g1 hu).trans L (b q u w hu g2)
  | .bin _ _, .bin _ _, .bin _ _ =>
    simp only [hi, hj, hk] at a b ⊢
    exact a.trans L b
  | .func _, .func _, .func _ =>
    simp only [hi, hj, hk] at a b ⊢
    exact ⟨F.trans _ _ _ a.1 b.1, F.trans _ _ _ b.2 a.2⟩
  | .pair _ _ _, .common _, _ | .pair _ _ _, .bin _ _, _ | .pair _ _ _, .func _, _
  | .common _, .pair _ _ _, _ | .common _, .bin _ _, _ | .common _, .func _, _
  | .bin _ _, .pair _ _ _, _ | .bin _ _, .common _, _ | .bin _ _, .func _, _
  | .func _, .pair _ _ _, _ | .func _, .common _, _ | .func _, .bin _ _, _ => simp [hi, hj] at a
  | _, .pair _ _ _, .common _ | _, .pair _ _ _, .bin _ _ | _, .pair _ _ _, .func _
  | _, .common _, .pair _ _ _ | _, .common _, .bin _ _ | _, .common _, .func _
  | _, .bin _ _, .pair _ _ _ | _, .bin _ _, .common _ | _, .bin _ _, .func _
  | _, .func _, .pair _ _ _ | _, .func _, .common _ | _, .func _, .bin _ _ => simp [hj, hk] at b

end ELC.Node
