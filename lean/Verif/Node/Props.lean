import Verif.Node.Lists
/-!
Nodes of the interpreter: comparisons, lists, indices of pairs, kept nodes.
-/
namespace ELC.Node
open LogicalBool (ofBool neither either unknown)

/-- Payload type 0 is numbers; type 1 has no `==`; all types behave.  Functions are equal when they are the same. -/
def sample : Env where
  eqAble T := T ≠ 1
  eq _ a b := a == b
  hashAble _ := true
  hash _ a := a
  funcEq f g := some (f == g)
  hashAddr i := 1000 + i
  hashVoid := 2
  hashNil := 0
  hashT := 1

theorem sample_lawful : Lawful sample where
  refl _ a := by simp [sample]
  symm _ a b h := by simp [sample] at *; exact h.symm
  trans _ a b c h h' := by simp [sample] at *; exact h.trans h'
  hash _ a b h := by simp [sample] at *; exact h
  able _ _ := rfl

theorem sample_func : FuncLawful sample where
  refl f := by simp [sample]
  symm f g h := by simp [sample] at *; exact h.symm
  trans f g k h h' := by simp [sample] at *; exact h.trans h'

/-! ### C82: identity of nodes -/

/-- `==` of pointers does not depend on the order. -/
theorem eq_symmetric (E : Env) (h : Heap) (x y : Ref) : eqWith E h x y = eqWith E h y x := eqWith_symm E h x y

/-- `==` of pointers says yes exactly for the same node and for binary nodes of one type with equal payloads; it is
undefined exactly for binary nodes of two types. -/
theorem eq_characterised {E : Env} (L : Lawful E) (h : Heap) (x y : Ref) :
    (eqWith E h x y = none ↔ Mixed E h x y) ∧ (Yes (eqWith E h x y) ↔ Same E h x y) := by
  constructor
  · constructor
    · intro e
      apply Classical.byContradiction
      intro hm
      rw [eqWith_eq L hm] at e; cases e
    · exact eqWith_mixed
  · rw [yes_eqWith L]
    exact ⟨fun H => H.2, fun H => ⟨H.not_mixed, H⟩⟩

/-- It is an equivalence. -/
theorem eq_equivalence {E : Env} (L : Lawful E) (h : Heap) :
    (∀ x, Yes (eqWith E h x x)) ∧ (∀ x y z, Yes (eqWith E h x y) → Yes (eqWith E h y z) → Yes (eqWith E h x z)) := by
  simp only [(eq_characterised L h _ _).2]
  exact ⟨fun x => .refl _ _ _, fun x y z a b => a.trans L b⟩

/-- Nodes that are `==` as pointers have the same hash. -/
theorem eq_hash {E : Env} (L : Lawful E) (h : Heap) (x y : Ref) (he : Yes (eqWith E h x y)) :
    hashOf E h x = hashOf E h y := by
  rcases (eq_characterised L h x y).2.1 he with rfl | ⟨i, j, T, a, b, rfl, rfl, h1, h2, h3, h4⟩
  · rfl
  · simp [hashOf, h1, h2, L.able T h3, L.hash T a b h4]

example : Yes (eqWith sample [.bin 0 5, .bin 0 5] (.node 0) (.node 1)) ∧
    ¬ Yes (eqWith sample [.bin 0 5, .bin 0 6] (.node 0) (.node 1)) ∧
    ¬ Yes (eqWith sample [.bin 1 5, .bin 1 5] (.node 0) (.node 1)) := by
  refine ⟨⟨_, rfl, rfl⟩, ?_, ?_⟩ <;> · rintro ⟨b, h1, h2⟩; cases h1; cases h2

/-- The full statement is false: comparing a binary node of one type with one of another type takes the payload of one for
the other. -/
theorem eq_types_refuted : ∃ (E : Env) (h : Heap) (x y : Ref), Lawful E ∧ eqWith E h x y = none :=
  ⟨sample, [.bin 0 5, .bin 2 5], .node 0, .node 1, sample_lawful, rfl⟩

/-- A node whose payload does not equal itself, like a float that is not a number, is not `==` to itself. -/
theorem eq_self_refuted : ∃ (E : Env) (h : Heap) (x : Ref), (∀ T a b, E.eq T a b = E.eq T b a) ∧
    ¬ Yes (eqWith E h x x) :=
  ⟨{ sample with eq := fun _ a b => a == b && a != 0 }, [.bin 0 0], .node 0, by
    intro T a b
    rw [Bool.eq_iff_iff]
    simp only [Bool.and_eq_true, beq_iff_eq, bne_iff_ne, ne_eq]
    constructor <;> · rintro ⟨rfl, h⟩; exact ⟨rfl, h⟩, by
    rintro ⟨b, h1, h2⟩; cases h1; cases h2⟩

/-! ### C83: equality of nodes -/

/-- `==` of nodes does not depend on the order. -/
theorem equal_symmetric (E : Env) (h : Heap) (x y : Ref) : equalWith E h x y = equalWith E h y x := equalWith_symm E h x y

/-- What `==` of nodes says, when all binary nodes are of one type. -/
theorem equal_characterised {E : Env} (L : Lawful E) {h : Heap} (O : OneType E h) (M : MapsDistinct E h) (x y : Ref) :
    (equalWith E h x y).isSome ∧ (Yes (equalWith E h x y) ↔ Equal E h x y) :=
  ⟨equalWith_defined L O M x y, yes_equalWith L O M x y⟩

/-- A heap with all kinds of nodes that meets the hypotheses. -/
def sampleHeap : Heap := [.bin 0 5, .bin 0 5, .pair .cons (.node 0) .nil, .pair .cons (.node 1) .nil,
  .common [(.node 0, .t), (.t, .void)], .common [(.node 1, .t)], .func 3]

theorem sampleHeap_ok : OneType sample sampleHeap ∧ MapsDistinct sample sampleHeap := by
  have hb : ∀ i T a, Heap.obj sampleHeap i = .bin T a → T = 0 := by
    intro i T a h
    match i with
    | 0 | 1 => cases h; rfl
    | 2 | 3 | 4 | 5 | 6 => cases h
    | n + 7 => simp [Heap.obj, sampleHeap] at h
  constructor
  · rintro x y ⟨i, j, T, U, a, b, rfl, rfl, h1, h2, h3, _⟩
    exact h3 ((hb _ _ _ h1).trans (hb _ _ _ h2).symm)
  · intro i m h
    match i with
    | 4 =>
      cases h
      refine List.Pairwise.cons ?_ (List.Pairwise.cons (by simp) .nil)
      intro r hr
      simp only [List.mem_singleton] at hr
      subst hr
      rintro (e | ⟨i, j, T, a, b, e1, e2, _⟩)
      · cases e
      · cases e2
    | 5 => cases h; exact List.Pairwise.cons (by simp) .nil
    | 0 | 1 | 2 | 3 | 6 => cases h
    | n + 7 => simp [Heap.obj, sampleHeap] at h

example : Yes (equalWith sample sampleHeap (.node 2) (.node 3)) ∧ Yes (equalWith sample sampleHeap (.node 4) (.node 5)) ∧
    ¬ Yes (equalWith sample sampleHeap (.node 2) (.node 4)) := by
  refine ⟨⟨_, rfl, rfl⟩, ⟨_, rfl, rfl⟩, ?_⟩
  rintro ⟨b, h1, h2⟩; cases h1; cases h2

/-- Partial: without the constant `t` it is an equivalence, when functions can be compared. -/
theorem equal_equivalence_partial {E : Env} (L : Lawful E) (F : FuncLawful E) {h : Heap} (O : OneType E h)
    (M : MapsDistinct E h) :
    (∀ x, Yes (equalWith E h x x)) ∧
    (∀ x y z, y ≠ .t → Yes (equalWith E h x y) → Yes (equalWith E h y z) → Yes (equalWith E h x z)) := by
  simp only [yes_equalWith L O M]
  constructor
  · intro x
    cases x with
    | node i => exact EqualNodes.refl F i
    | _ => trivial
  · intro x y z hy a b
    match x, y, z with
    | .void, .void, _ | .nil, .nil, _ => exact b
    | .t, .node _, .node _ | .t, .node _, .t | .node _, .node _, .t => trivial
    | .node i, .node j, .node k => exact EqualNodes.trans L F a b
    | _, .t, _ => exact absurd rfl hy

/-- The full statement is false: `t` equals two different nodes. -/
theorem equal_transitive_refuted : ∃ (E : Env) (h : Heap) (x y : Ref), Lawful E ∧ FuncLawful E ∧ OneType E h ∧
    MapsDistinct E h ∧ Yes (equalWith E h x .t) ∧ Yes (equalWith E h .t y) ∧ ¬ Yes (equalWith E h x y) :=
  ⟨sample, sampleHeap, .node 0, .node 2, sample_lawful, sample_func, sampleHeap_ok.1, sampleHeap_ok.2, ⟨_, rfl, rfl⟩,
    ⟨_, rfl, rfl⟩, by rintro ⟨b, h1, h2⟩; cases h1; cases h2⟩

/-- A function node whose function has no `==`, like a lambda, does not equal itself. -/
theorem equal_self_refuted : ∃ (E : Env) (h : Heap) (x : Ref), Lawful E ∧ ¬ Yes (equalWith E h x x) :=
  ⟨{ sample with funcEq := fun _ _ => some false }, [.func 3], .node 0,
    ⟨sample_lawful.1, sample_lawful.2, sample_lawful.3, sample_lawful.4, sample_lawful.5⟩, by
    rintro ⟨b, h1, h2⟩; cases h1; cases h2⟩

/-- Equal nodes can have different hashes. -/
theorem equal_hash_refuted : ∃ (E : Env) (h : Heap) (x y : Ref), Lawful E ∧ Yes (equalWith E h x y) ∧
    hashOf E h x ≠ hashOf E h y :=
  ⟨sample, sampleHeap, .node 2, .node 3, sample_lawful, ⟨_, rfl, rfl⟩, by decide⟩

/-! ### C84: lists -/

/-- A list gives back the nodes it was made from, also after other nodes were made. -/
theorem list_items (h g : Heap) (l : List Ref) : IsList ((makeList h l).1 ++ g) (makeList h l).2 l ∧
    ∀ fuel, l.length < fuel → walk ((makeList h l).1 ++ g) fuel (makeList h l).2 = some l :=
  ⟨makeList_isList h l g, walk_isList (makeList_isList h l g)⟩

/-- Making a list changes no other node. -/
theorem list_keeps (h : Heap) (l : List Ref) (i : Nat) (hi : i < h.length) : Heap.obj (makeList h l).1 i = h.obj i := by
  obtain ⟨g, hg, _⟩ := makeList_grows h l
  rw [hg]; exact obj_append hi g

/-- Two lists made one after the other are equal exactly when both are empty, or both have one item and these are the
same. -/
theorem lists_equal_characterised {E : Env} (L : Lawful E) {h : Heap} {l m : List Ref}
    (O : OneType E (makeList (makeList h l).1 m).1) :
    Yes (equalWith E (makeList (makeList h l).1 m).1 (makeList h l).2 (makeList (makeList h l).1 m).2) ↔
      (l = [] ∧ m = []) ∨ ∃ a b, l = [a] ∧ m = [b] ∧ Same E (makeList (makeList h l).1 m).1 a b := by
  classical
  have no : ¬ Yes (some (ofBool false)) := by rw [yes_ofBool]; simp
  match l, m with
  | [], [] => simp [makeList, equalWith, level, wasEqual, truth, both_ofBool, yes_ofBool]
  | [], b :: m =>
    rw [makeList_ref]
    simp only [makeList, equalWith, level, wasEqual, truth, ofBool_not]
    simpa using no
  | a :: l, [] =>
    rw [makeList_ref]
    simp only [makeList, equalWith, level, wasEqual, truth, ofBool_not]
    simpa using no
  | a :: l, b :: m =>
    obtain ⟨g1, e1, n1⟩ := makeList_grows h l
    obtain ⟨g2, e2, n2⟩ := makeList_grows (makeList h (a :: l)).1 m
    have l1 : (makeList h (a :: l)).1.length = h.length + l.length + 1 := by
      obtain ⟨g, e, n⟩ := makeList_grows h (a :: l)
      rw [e]; simp [n]; omega
    have o1 : Heap.obj (makeList (makeList h (a :: l)).1 (b :: m)).1 (h.length + l.length) =
        .pair .cons a (makeList h l).2 := by
      rw [list_keeps _ _ _ (by omega)]
      have : h.length + l.length = (makeList h l).1.length := by rw [e1]; simp [n1]
      simp only [makeList]
      rw [this, obj_last]
    have o2 : Heap.obj (makeList (makeList h (a :: l)).1 (b :: m)).1 ((makeList h (a :: l)).1.length + m.length) =
        .pair .cons b (makeList (makeList h (a :: l)).1 m).2 := by
      have : (makeList h (a :: l)).1.length + m.length = (makeList (makeList h (a :: l)).1 m).1.length := by
        rw [e2]; simp [n2]
      rw [this]
      exact obj_last _ _
    rw [makeList_ref h a l, makeList_ref (makeList h (a :: l)).1 b m]
    generalize hH : (makeList (makeList h (a :: l)).1 (b :: m)).1 = H at *
    have half : ∀ (i j : Nat) (a b : Ref) (d d' : Ref), H.obj i = .pair .cons a d → H.obj j = .pair .cons b d' →
        wasEqual E H (.node i) (.node j) = some (ofBool (decide (Same E H a b) && decide (Same E H d d'))) := by
      intro i j a b d d' hi hj
      simp only [wasEqual, hi, hj, if_true, eqWith_eq L (O _ _), both_ofBool]
    simp only [equalWith, level, Nat.lt_irrefl, if_false, yes_both, half _ _ _ _ _ _ o1 o2, half _ _ _ _ _ _ o2 o1,
      yes_ofBool, Bool.and_eq_true, decide_eq_true_eq, reduceCtorEq, false_and, false_or, List.cons.injEq]
    -- the rests are different nodes, unless both are empty
    have tails : Same E H (makeList h l).2 (makeList (makeList h (a :: l)).1 m).2 ↔ l = [] ∧ m = [] := by
      match l, m with
      | [], [] => exact ⟨fun _ => ⟨rfl, rfl⟩, fun _ => .inl rfl⟩
      | [], c :: m =>
        rw [makeList_ref]
        simp only [makeList, reduceCtorEq, and_false, iff_false]
        rintro (e | ⟨_, _, _, _, _, e, _⟩) <;> cases e
      | c :: l, [] =>
        simp only [makeList, reduceCtorEq, false_and, iff_false]
        rintro (e | ⟨_, _, _, _, _, _, e, _⟩) <;> cases e
      | c :: l, d :: m =>
        rw [makeList_ref, makeList_ref]
        simp only [reduceCtorEq, false_and, iff_false]
        have hc : Heap.obj H (h.length + l.length) = .pair .cons c (makeList h l).2 := by
          rw [← hH, list_keeps _ _ _ (by rw [l1]; simp; omega)]
          have e3 := makeList_grows h l
          obtain ⟨g3, e3, n3⟩ := e3
          have : h.length + l.length = (makeList h l).1.length := by rw [e3]; simp [n3]
          show Heap.obj ((makeList h (c :: l)).1 ++ _) _ = _
          rw [obj_append (by simp [makeList, e3, n3])]
          simp only [makeList]
          rw [this, obj_last]
        rintro (e | ⟨i, j, T, p, q, e1, e2, h1, _⟩)
        · simp only [Ref.node.injEq, List.length_cons] at e l1; omega
        · cases e1; rw [hc] at h1; cases h1
    rw [tails]
    constructor
    · rintro ⟨⟨hs, rfl, rfl⟩, _⟩
      exact ⟨a, b, ⟨rfl, rfl⟩, ⟨rfl, rfl⟩, hs⟩
    · rintro ⟨a', b', ⟨rfl, rfl⟩, ⟨rfl, rfl⟩, hs⟩
      exact ⟨⟨hs, rfl, rfl⟩, hs.symm L, .inl rfl⟩

example : ∃ h : Heap, OneType sample (makeList (makeList h [.node 0, .node 1]).1 [.node 0, .node 1]).1 ∧
    Same sample (makeList (makeList h [.node 0, .node 1]).1 [.node 0, .node 1]).1 (.node 0) (.node 1) := by
  refine ⟨[.bin 0 5, .bin 0 5], ?_, .inr ⟨0, 1, 0, 5, 5, rfl, rfl, rfl, rfl, rfl, rfl⟩⟩
  have hb : ∀ i T a, Heap.obj (makeList (makeList [.bin 0 5, .bin 0 5] [.node 0, .node 1]).1 [.node 0, .node 1]).1 i =
      .bin T a → T = 0 := by
    intro i T a h
    match i with
    | 0 | 1 => cases h; rfl
    | 2 | 3 | 4 | 5 => cases h
    | n + 6 => simp [Heap.obj, makeList] at h
  rintro x y ⟨i, j, T, U, a, b, rfl, rfl, h1, h2, h3, _⟩
  exact h3 ((hb _ _ _ h1).trans (hb _ _ _ h2).symm)

/-- The full statement is false: two lists of the same two nodes are not equal. -/
theorem lists_equal_refuted : ∃ (E : Env) (h : Heap) (l : List Ref), Lawful E ∧ FuncLawful E ∧
    equalWith E (makeList (makeList h l).1 l).1 (makeList h l).2 (makeList (makeList h l).1 l).2 = some (ofBool false) :=
  ⟨sample, [], [.t, .t], sample_lawful, sample_func, rfl⟩

/-! ### C85: an index that a pair does not have -/

/-- Value `z` is where value `x` or value `y` itself is: following the replacements of `z` ends at the cell that one of
these has. -/
def Lost (s : Val.State) (z x y : Nat) : Prop :=
  ∃ i r, s.vals[z]? = some i ∧ Val.getPtr s.cells i = .ok r ∧ (s.vals[x]? = some r ∨ s.vals[y]? = some r)

/-- Indexing a pair with parts `x` and `y` by another index: the new node's `t` and `nil` read what the parts read, but void
when the part is where one of the parts itself is; the parts read void, and so does the new record. -/
theorem pair_index_characterised {s : Val.State} (hr : Val.Reach s) {x y : Nat} (hx : x < s.vals.length)
    (hy : y < s.vals.length) :
    ∃ s', Val.run s (indexOps s.vals.length x y) = .ok (s', []) ∧
      (Lost s x x y → Val.Reads s' s.vals.length 0) ∧
      (¬ Lost s x x y → ∀ v, Val.Reads s x v → Val.Reads s' s.vals.length v) ∧
      (Lost s y x y → Val.Reads s' (s.vals.length + 1) 0) ∧
      (¬ Lost s y x y → ∀ v, Val.Reads s y v → Val.Reads s' (s.vals.length + 1) v) ∧
      Val.Reads s' x 0 ∧ Val.Reads s' y 0 ∧ Val.Reads s' (s.vals.length + 4) 0 := by
  have g := hr.good
  have hx' : s.vals[x]? = some s.vals[x] := by simp [hx]
  have hy' : s.vals[y]? = some s.vals[y] := by simp [hy]
  generalize s.vals[x] = i at hx'
  generalize s.vals[y] = j at hy'
  obtain ⟨ni, ri, ci, pi⟩ := g.chain hx'
  obtain ⟨nj, rj, cj, pj⟩ := g.chain hy'
  obtain ⟨C, s', hrun, g', hC, hcells, hvals⟩ := index_run g hx' hy' ci cj
  obtain ⟨hl, hv, h0, h1, hin, hout⟩ := index_cells (g.lt hx') (g.lt hy') hC
  have up : ∀ {k : Nat} {c : Val.Cell}, C[k]? = some c → s'.cells[k]? = some c := by
    intro k c hc
    rw [hcells]; exact Val.get_append hc
  have root : Val.Chain s'.cells (s.cells.length + 2) 0 (s.cells.length + 2) := .root (up hv) rfl
  have at' : ∀ k, k = i ∨ k = j → Val.Chain s'.cells k 1 (s.cells.length + 2) := by
    intro k hk
    obtain ⟨d, hd⟩ := hin k hk
    have hk' : k < s.cells.length := by
      rcases hk with rfl | rfl
      · exact g.lt hx'
      · exact g.lt hy'
    exact .step (up hd) (by dsimp only; omega) root
  have lost_iff : ∀ {z k n r : Nat}, s.vals[z]? = some k → Val.Chain s.cells k n r →
      Val.getPtr s.cells k = .ok r → (Lost s z x y ↔ r = i ∨ r = j) := by
    intro z k n r hz hk hp
    constructor
    · rintro ⟨k', r', e1, e2, e3⟩
      rw [hz] at e1; cases e1
      rw [hp] at e2; cases e2
      rcases e3 with e3 | e3
      · rw [hx'] at e3; cases e3; exact .inl rfl
      · rw [hy'] at e3; cases e3; exact .inr rfl
    · rintro (rfl | rfl)
      · exact ⟨k, _, hz, hp, .inl hx'⟩
      · exact ⟨k, _, hz, hp, .inr hy'⟩
  have part : ∀ {z k n r e w : Nat}, s.vals[z]? = some k → Val.Chain s.cells k n r → Val.getPtr s.cells k = .ok r →
      C[e]? = some ⟨.var 0, r⟩ → s.cells.length ≤ e → s'.vals[w]? = some e →
      (Lost s z x y → Val.Reads s' w 0) ∧ (¬ Lost s z x y → ∀ v, Val.Reads s z v → Val.Reads s' w v) := by
    intro z k n r e w hz hk hp he hle hw
    rw [lost_iff hz hk hp]
    have hr' := hk.lt
    constructor
    · intro H
      exact g'.reads.2 ⟨e, 2, _, _, hw, .step (up he) (by dsimp only; omega) (at' r H), up hv, rfl⟩
    · intro H v hv'
      obtain ⟨k', n', r', c, e1, e2, e3, e4⟩ := g.reads.1 hv'
      rw [hz] at e1; cases e1
      obtain ⟨_, rfl⟩ := hk.unique e2
      obtain ⟨c', hc1, hc2⟩ := hk.isRoot
      rw [e3] at hc1; cases hc1
      have hcr : s'.cells[r]? = some c := up (by rw [hout r hr' (fun e => H (.inl e)) (fun e => H (.inr e))]; exact e3)
      exact g'.reads.2 ⟨e, 1, r, c, hw, .step (up he) (by dsimp only; omega) (.root hcr hc2), hcr, e4⟩
  obtain ⟨p1, p2⟩ := part (w := s.vals.length) hx' ci pi h0 (by omega) (by rw [hvals]; simp)
  obtain ⟨q1, q2⟩ := part (w := s.vals.length + 1) hy' cj pj h1 (by omega) (by rw [hvals]; simp)
  refine ⟨s', hrun, p1, p2, q1, q2, ?_, ?_, ?_⟩
  · refine g'.reads.2 ⟨i, 1, _, _, ?_, at' i (.inl rfl), up hv, rfl⟩
    rw [hvals]; simp only [List.append_assoc]; rw [List.getElem?_append_left hx, hx']
  · refine g'.reads.2 ⟨j, 1, _, _, ?_, at' j (.inr rfl), up hv, rfl⟩
    rw [hvals]; simp only [List.append_assoc]; rw [List.getElem?_append_left hy, hy']
  · have hl' : s'.cells[s.cells.length + 3]? = some ⟨.var 0, s.cells.length + 3⟩ := by rw [hcells]; simp [← hl]
    refine g'.reads.2 ⟨s.cells.length + 3, 0, _, _, ?_, .root hl' rfl, hl', rfl⟩
    rw [hvals]; simp

/-- The full statement is false: a pair just made, its parts 5 and 6; after an index of another kind both are void. -/
theorem pair_index_refuted : ∃ s s' s'', Val.run Val.init [.fresh, .assign 0 5, .fresh, .assign 1 6] = .ok (s, []) ∧
    Val.run s (indexOps 2 0 1) = .ok (s', []) ∧ Val.run s' [.read 2, .read 3] = .ok (s'', [0, 0]) :=
  ⟨_, _, _, rfl, rfl, rfl⟩

/-- Partial: the parts are kept when both were bound to other values and not used since. -/
theorem pair_index_partial {s : Val.State} (hr : Val.Reach s) {x y v w : Nat} (hx : Val.Reads s x v)
    (hy : Val.Reads s y w) (h1 : ¬ Lost s x x y) (h2 : ¬ Lost s y x y) :
    ∃ s', Val.run s (indexOps s.vals.length x y) = .ok (s', []) ∧ Val.Reads s' s.vals.length v ∧
      Val.Reads s' (s.vals.length + 1) w := by
  have lt : ∀ {x v}, Val.Reads s x v → x < s.vals.length := by
    intro x v h
    obtain ⟨i, _, _, _, h, _⟩ := hr.good.reads.1 h
    exact Val.get?_some_of h
  obtain ⟨s', e, _, a, _, b, _⟩ := pair_index_characterised hr (lt hx) (lt hy)
  exact ⟨s', e, a h1 v hx, b h2 w hy⟩

/-- Such a state: both parts were bound to constants. -/
example : ∃ s, Val.Reach s ∧ Val.Reads s 0 5 ∧ Val.Reads s 1 6 ∧ ¬ Lost s 0 0 1 ∧ ¬ Lost s 1 0 1 := by
  refine ⟨⟨[⟨.null, 0⟩, ⟨.var 0, 3⟩, ⟨.var 0, 4⟩, ⟨.const 5, 3⟩, ⟨.const 6, 4⟩], [1, 2, 3, 4]⟩, ?_, ⟨_, rfl⟩, ⟨_, rfl⟩, ?_, ?_⟩
  · exact .step (.step (.step (.step (.step (.step .init (o := .fresh) rfl) (o := .fresh) rfl) (o := .const 5) rfl)
      (o := .const 6) rfl) (o := .shift 2 0) rfl) (o := .shift 3 1) rfl
  · rintro ⟨i, r, h1, h2, h3⟩
    cases h1; cases h2
    rcases h3 with h3 | h3 <;> cases h3
  · rintro ⟨i, r, h1, h2, h3⟩
    cases h1; cases h2
    rcases h3 with h3 | h3 <;> cases h3

/-! ### C86: kept nodes -/

/-- Partial: after any history the node kept for a payload is a binary node with that payload, unless the node kept before
was replaced by a node of another kind that counts as true and the payload is the default value. -/
theorem kept_holds_partial {eq : Nat → Nat → Bool} (hr : ∀ a, eq a a = true) {dflt : Nat} {ds : List Do} {s : Store}
    (h : Store.new.run eq dflt ds = some s) (a : Nat) :
    ∃ s' i, keep eq dflt s a = some (s', i) ∧
      ((∃ b, s'.Holds i b ∧ eq b a = true) ∨ (s'.at i = some (.other true) ∧ eq dflt a = true)) ∧
      ∀ j k, s.at j = some k → s'.at j = some k := by
  have ok := Store.ok_new.run h
  have hd : ∃ r, keep eq dflt s a = some r := by
    unfold keep
    dsimp only
    split
    · exact ⟨_, by rw [if_pos (hr a)]⟩
    · split <;> exact ⟨_, rfl⟩
  obtain ⟨⟨s', i⟩, e⟩ := hd
  refine ⟨s', i, e, ?_⟩
  rcases keep_cases e with ⟨rfl, rfl⟩ | ⟨rfl, _, k, h1, h2, h3⟩
  · refine ⟨.inl ⟨a, Store.at_make_new ok _, hr a⟩, fun j k hj => ?_⟩
    have hj' : j < s.nodes.length := by
      rw [← ok.len]
      simp only [Store.at, Option.bind_eq_some_iff] at hj
      obtain ⟨e, h1, _⟩ := hj
      exact Val.get?_some_of h1
    exact (Store.at_make_old ok _ hj').trans hj
  · refine ⟨?_, fun j k hj => hj⟩
    cases k with
    | payload b => exact .inl ⟨b, h1, h3⟩
    | other t => cases h2; exact .inr ⟨h1, h3⟩

/-- The full statement is false: the node kept for 0 was replaced by a pair, and the pair is the answer for 0 now. -/
theorem kept_holds_refuted : ∃ (ds : List Do) (s s' : Store) (i : Nat), Store.new.run (· == ·) 0 ds = some s ∧
    keep (· == ·) 0 s 0 = some (s', i) ∧ ∀ b, ¬ s'.Holds i b :=
  ⟨[.keep 0, .make (.other true), .replace 0 1], _, _, _, rfl, rfl, by
    intro b h; cases h⟩

/-- A payload that does not equal itself, like a float that is not a number, cannot be kept. -/
theorem kept_undefined_refuted : ∃ eq : Nat → Nat → Bool, (∀ a b, eq a b = eq b a) ∧
    (∀ a b c, eq a b = true → eq b c = true → eq a c = true) ∧ keep eq 1 .new 0 = none :=
  ⟨fun a b => a == b && a != 0, by
    intro a b
    rw [Bool.eq_iff_iff]
    simp only [Bool.and_eq_true, beq_iff_eq, bne_iff_ne, ne_eq]
    constructor <;> · rintro ⟨rfl, h⟩; exact ⟨rfl, h⟩, by
    intro a b c
    simp only [Bool.and_eq_true, beq_iff_eq, bne_iff_ne, ne_eq]
    rintro ⟨rfl, h⟩ ⟨rfl, h'⟩; exact ⟨rfl, h⟩, rfl⟩

/-- Keeping and making of nodes: no changes to nodes that there are. -/
def Do.quiet : Do → Prop
  | .keep _ | .make _ => True
  | .set .. | .replace .. => False

/-- Keeping the same payload again answers with the same node, whatever was kept or made in between. -/
theorem kept_again {eq : Nat → Nat → Bool} (hr : ∀ a, eq a a = true) (hs : ∀ a b, eq a b = true → eq b a = true)
    (ht : ∀ a b c, eq a b = true → eq b c = true → eq a c = true) {dflt : Nat} {ds ds' : List Do} {s s' s'' : Store}
    {a b i : Nat} (h : Store.new.run eq dflt ds = some s) (hk : keep eq dflt s a = some (s', i))
    (hq : ∀ d ∈ ds', d.quiet) (h' : s'.run eq dflt ds' = some s'') (hb : eq a b = true) :
    keep eq dflt s'' b = some (s'', i) := by
  have ok := Store.ok_new.run h
  have okk : ∀ {s s' : Store} {a i : Nat}, s.Ok → keep eq dflt s a = some (s', i) → s'.Ok := by
    intro s s' a i o e
    exact o.step (eq := eq) (dflt := dflt) (d := .keep a) (o := some i) (by simp [Store.step, e])
  -- what makes the answer certain
  let Sure (s : Store) := s.Ok ∧ i < s.nodes.length ∧
    ∀ b, eq a b = true → find eq b s.map = some i ∧ ∃ k, s.at i = some k ∧ k.toBool = true ∧ eq (useAs dflt k) b = true
  have again : ∀ {s : Store} {b : Nat}, Sure s → eq a b = true → keep eq dflt s b = some (s, i) := by
    rintro s b ⟨_, _, H⟩ hb
    obtain ⟨h1, k, h2, h3, h4⟩ := H b hb
    simp only [keep, h1, h2, h3, h4]
    rfl
  have at_lt : ∀ {s : Store} {k : Kept}, s.Ok → s.at i = some k → i < s.nodes.length := by
    intro s k o hj
    rw [← o.len]
    simp only [Store.at, Option.bind_eq_some_iff] at hj
    obtain ⟨e, h1, _⟩ := hj
    exact Val.get?_some_of h1
  have find_eq : ∀ {m : List (Nat × Nat)} {a b : Nat}, eq a b = true → find eq b m = find eq a m := by
    intro m a b e
    induction m with
    | nil => rfl
    | cons r m ih =>
      unfold find
      have : eq r.1 b = eq r.1 a := by
        rw [Bool.eq_iff_iff]
        exact ⟨fun h => ht _ _ _ h (hs _ _ e), fun h => ht _ _ _ h e⟩
      rw [this, ih]
  have sure : Sure s' := by
    refine ⟨okk ok hk, ?_⟩
    rcases keep_cases hk with ⟨rfl, rfl⟩ | ⟨rfl, h0, k, h1, h2, h3⟩
    · refine ⟨by simp [Store.make], fun b hb => ⟨?_, .payload a, Store.at_make_new ok _, rfl, hb⟩⟩
      rw [find_put hr hs ht, if_pos hb]
    · exact ⟨at_lt ok h1, fun b hb => ⟨(find_eq hb).trans h0, k, h1, h2, ht _ _ _ h3 hb⟩⟩
  clear hk h ok
  have all : ∀ {ds' : List Do} {s' s'' : Store}, (∀ d ∈ ds', d.quiet) → Sure s' → s'.run eq dflt ds' = some s'' →
      Sure s'' := by
    intro ds'
    induction ds' with
    | nil => intro s' s'' _ H e; cases e; exact H
    | cons d ds' ih =>
      intro s' s'' hq H e
      simp only [Store.run, Option.bind_eq_some_iff] at e
      obtain ⟨⟨s1, o⟩, h1, h2⟩ := e
      refine ih (fun d hd => hq d (by simp [hd])) ?_ h2
      have hd := hq d (by simp)
      refine ⟨H.1.step h1, ?_⟩
      cases d with
      | set _ _ => exact hd.elim
      | replace _ _ => exact hd.elim
      | make k =>
        cases h1
        refine ⟨by have := H.2.1; simp [Store.make]; omega, fun b hb => ?_⟩
        obtain ⟨f, k', h1, h2⟩ := H.2.2 b hb
        exact ⟨f, k', by rw [Store.at_make_old H.1 _ H.2.1]; exact h1, h2⟩
      | keep c =>
        simp only [Store.step, Option.map_eq_some_iff] at h1
        obtain ⟨⟨s2, j⟩, h1, h3⟩ := h1
        cases h3
        by_cases hc : eq a c = true
        · rw [again H hc] at h1; cases h1; exact H.2
        · rcases keep_cases h1 with ⟨rfl, rfl⟩ | ⟨rfl, _⟩
          · refine ⟨by have := H.2.1; simp [Store.make]; omega, fun b hb => ?_⟩
            obtain ⟨f, k', h1, h2⟩ := H.2.2 b hb
            refine ⟨?_, k', (Store.at_make_old H.1 _ H.2.1).trans h1, h2⟩
            rw [find_put hr hs ht, if_neg, f]
            exact fun e => hc (ht _ _ _ hb (hs _ _ e))
          · exact H.2
  exact again (all hq sure h') hb

example : ∃ s s' s'', Store.new.run (· == ·) 0 [.make (.other true), .keep 5, .set 1 6] = some s ∧
    keep (· == ·) 0 s 5 = some (s', 2) ∧ s'.run (· == ·) 0 [.keep 6, .make (.payload 5)] = some s'' ∧
    keep (· == ·) 0 s'' 5 = some (s'', 2) ∧ s''.Holds 2 5 :=
  ⟨_, _, _, rfl, rfl, rfl, rfl, rfl⟩

end ELC.Node
