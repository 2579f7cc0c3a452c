import Verif.Node.Equal
import Verif.Val.Code
/-!
Lists, indices of pairs, kept nodes.
-/
namespace ELC.Node
open LogicalBool (ofBool neither either unknown)

/-! ### lists -/

theorem obj_append {h : Heap} {i : Nat} (hi : i < h.length) (g : Heap) : Heap.obj (h ++ g) i = h.obj i := by
  simp [Heap.obj, List.getElem?_append_left hi]

theorem obj_last (h : Heap) (o : Obj) : Heap.obj (h ++ [o]) h.length = o := by simp [Heap.obj]

theorem makeList_grows (h : Heap) : ∀ l, ∃ g, (makeList h l).1 = h ++ g ∧ g.length = l.length
  | [] => ⟨[], by simp [makeList], rfl⟩
  | a :: l => by
    obtain ⟨g, hg, hl⟩ := makeList_grows h l
    exact ⟨g ++ [.pair .cons a (makeList h l).2], by simp [makeList, hg], by simp [hl]⟩

theorem IsList.grow {h : Heap} {r : Ref} {l : List Ref} (hr : ∀ i, r = .node i → i < h.length)
    (hd : ∀ i k a j, h.obj i = .pair k a (.node j) → j < h.length) (H : IsList h r l) (g : Heap) : IsList (h ++ g) r l := by
  induction H with
  | nil => exact .nil
  | @cons i a d l h1 _ ih =>
    refine .cons (by rw [obj_append (hr i rfl)]; exact h1) (ih ?_)
    intro j e
    subst e
    exact hd _ _ _ _ h1

/-- A new list is the list of its items, also after more nodes were made, and its first node is new. -/
theorem makeList_isList (h : Heap) : ∀ (l : List Ref) (g : Heap), IsList ((makeList h l).1 ++ g) (makeList h l).2 l
  | [], g => .nil
  | a :: l, g => by
    have ih := makeList_isList h l ([.pair .cons a (makeList h l).2] ++ g)
    simp only [makeList]
    refine .cons (d := (makeList h l).2) ?_ ?_
    · rw [obj_append (by simp), obj_last]
    · rw [List.append_assoc]; exact ih

theorem makeList_ref (h : Heap) (a : Ref) (l : List Ref) :
    (makeList h (a :: l)).2 = .node (h.length + l.length) := by
  obtain ⟨g, hg, hl⟩ := makeList_grows h l
  simp [makeList, hg, hl]

theorem walk_isList {h : Heap} {r : Ref} {l : List Ref} (H : IsList h r l) :
    ∀ fuel, l.length < fuel → walk h fuel r = some l := by
  induction H with
  | nil =>
    intro fuel hf
    obtain ⟨f, rfl⟩ : ∃ f, fuel = f + 1 := ⟨fuel - 1, by omega⟩
    rfl
  | @cons i a d l h1 _ ih =>
    intro fuel hf
    obtain ⟨f, rfl⟩ : ∃ f, fuel = f + 1 := ⟨fuel - 1, by simp at hf; omega⟩
    have := ih f (by simp at hf; omega)
    simp [walk, truth, carOf, cdrOf, h1, this]

/-! ### indices of pairs -/

section
open Val

theorem replace_last (cells : List Cell) (d : Data) (f p : Nat) :
    beReplaceAs (cells ++ [⟨d, f⟩]) cells.length p = cells ++ [⟨d, p⟩] := by
  simp [beReplaceAs]

theorem fresh_ok {s : State} (g : Good s) : ∃ s', step s .fresh = .ok (s', none) ∧ Good s' ∧
    s'.cells = s.cells ++ [⟨.var 0, s.cells.length⟩] ∧ s'.vals = s.vals ++ [s.cells.length] :=
  ⟨_, rfl, (g.make _).push (by simp [State.make]), rfl, rfl⟩

theorem const_ok {s : State} (g : Good s) (p : Nat) : ∃ s', step s (.const p) = .ok (s', none) ∧ Good s' ∧
    s'.cells = s.cells ++ [⟨.const p, s.cells.length⟩] ∧ s'.vals = s.vals ++ [s.cells.length] :=
  ⟨_, rfl, (g.make _).push (by simp [State.make]), rfl, rfl⟩

theorem copy_ok {s : State} (g : Good s) {x i : Nat} (hx : s.vals[x]? = some i) : ∃ s',
    step s (.copy x) = .ok (s', none) ∧ Good s' ∧ s'.cells = s.cells ∧ s'.vals = s.vals ++ [i] :=
  ⟨_, by simp only [step, State.to_some hx, bind, Except.bind, pure, Except.pure], g.push (g.lt hx), rfl, rfl⟩

theorem shift_ok {s : State} (g : Good s) {z x j i n p : Nat} (hz : s.vals[z]? = some j) (hx : s.vals[x]? = some i)
    (hc : Chain s.cells j n p) : ∃ s', step s (.shift z x) = .ok (s', none) ∧ Good s' ∧
    s'.cells = beReplaceAs s.cells i p ∧ s'.vals = s.vals := by
  obtain ⟨n', p', h1, h2⟩ := g.chain hz
  obtain ⟨_, rfl⟩ := hc.unique h1
  exact ⟨_, by simp only [step, State.to_some hz, State.to_some hx, h2, bind, Except.bind, pure, Except.pure],
    g.replace (g.lt hx) hc, rfl, rfl⟩

/-- What an index that a pair does not have leaves. -/
theorem index_run {s : State} (g : Good s) {x y i j ni ri nj rj : Nat} (hx : s.vals[x]? = some i)
    (hy : s.vals[y]? = some j) (ci : Chain s.cells i ni ri) (cj : Chain s.cells j nj rj) :
    ∃ C s', run s (indexOps s.vals.length x y) = .ok (s', []) ∧ Good s' ∧
      C = beReplaceAs (beReplaceAs (s.cells ++ [⟨.var 0, ri⟩] ++ [⟨.var 0, rj⟩] ++ [⟨.const 0, s.cells.length + 2⟩])
        i (s.cells.length + 2)) j (s.cells.length + 2) ∧
      s'.cells = C ++ [⟨.var 0, s.cells.length + 3⟩] ∧
      s'.vals = s.vals ++ [s.cells.length] ++ [s.cells.length + 1] ++ [s.cells.length + 2] ++ [s.cells.length + 3] ++
        [s.cells.length + 3] := by
  have hx' : x < s.vals.length := get?_some_of hx
  have hy' : y < s.vals.length := get?_some_of hy
  have hi := g.lt hx
  have hj := g.lt hy
  -- the record of `t`
  obtain ⟨s1, e1, g1, c1, v1⟩ := fresh_ok g
  obtain ⟨s2, e2, g2, c2, v2⟩ := shift_ok (z := x) (x := s.vals.length) (j := i) (i := s.cells.length) (n := ni)
    (p := ri) g1 (by rw [v1, List.getElem?_append_left hx', hx]) (by rw [v1]; simp) (by rw [c1]; exact ci.append _)
  rw [c1, replace_last] at c2
  rw [v1] at v2
  -- the record of `nil`
  obtain ⟨s3, e3, g3, c3, v3⟩ := fresh_ok g2
  have l2 : s2.cells.length = s.cells.length + 1 := by rw [c2]; simp
  obtain ⟨s4, e4, g4, c4, v4⟩ := shift_ok (z := y) (x := s.vals.length + 1) (j := j) (i := s2.cells.length) (n := nj)
    (p := rj) g3 (by rw [v3, v2, List.append_assoc, List.getElem?_append_left hy', hy]) (by rw [v3, v2]; simp [l2])
    (by rw [c3, c2]; exact (cj.append _).append _)
  rw [c3, replace_last, c2] at c4
  rw [v3, v2, l2] at v4
  -- the void
  obtain ⟨s5, e5, g5, c5, v5⟩ := const_ok g4 0
  have l4 : s4.cells.length = s.cells.length + 2 := by rw [c4]; simp
  have r5 : Chain s5.cells (s.cells.length + 2) 0 (s.cells.length + 2) := by
    have := Chain.fresh s4.cells (.const 0)
    rw [← c5, l4] at this; exact this
  rw [l4, c4] at c5
  rw [l4, v4] at v5
  have vx : s5.vals[x]? = some i := by
    rw [v5]; simp only [List.append_assoc]; rw [List.getElem?_append_left hx', hx]
  have vy : s5.vals[y]? = some j := by
    rw [v5]; simp only [List.append_assoc]; rw [List.getElem?_append_left hy', hy]
  have vv : s5.vals[s.vals.length + 2]? = some (s.cells.length + 2) := by rw [v5]; simp
  obtain ⟨s6, e6, g6, c6, v6⟩ := shift_ok (z := s.vals.length + 2) (x := x) g5 vv vx r5
  have r6 : Chain s6.cells (s.cells.length + 2) 0 (s.cells.length + 2) := by
    refine .root (c := ⟨.const 0, s.cells.length + 2⟩) ?_ rfl
    rw [c6, beReplaceAs_ne (by omega), c5]
    simp
  obtain ⟨s7, e7, g7, c7, v7⟩ := shift_ok (z := s.vals.length + 2) (x := y) g6 (by rw [v6]; exact vv)
    (by rw [v6]; exact vy) r6
  rw [c6, c5] at c7
  rw [v6, v5] at v7
  obtain ⟨s8, e8, g8, c8, v8⟩ := fresh_ok g7
  have l7 : s7.cells.length = s.cells.length + 3 := by rw [c7]; simp [beReplaceAs_length]
  rw [l7] at c8 v8
  rw [v7] at v8
  obtain ⟨s9, e9, g9, c9, v9⟩ := copy_ok (x := s.vals.length + 3) (i := s.cells.length + 3) g8 (by rw [v8]; simp)
  refine ⟨_, s9, ?_, g9, c7, by rw [c9, c8], by rw [v9, v8]⟩
  simp only [indexOps, run, e1, e2, e3, e4, e5, e6, e7, e8, e9, bind, Except.bind, pure, Except.pure, Option.toList,
    List.nil_append]

/-- The cells afterwards. -/
theorem index_cells {cells : List Cell} {i j ri rj : Nat} (hi : i < cells.length) (hj : j < cells.length) {C : List Cell}
    (hC : C = beReplaceAs (beReplaceAs (cells ++ [⟨.var 0, ri⟩] ++ [⟨.var 0, rj⟩] ++ [⟨.const 0, cells.length + 2⟩])
        i (cells.length + 2)) j (cells.length + 2)) :
    C.length = cells.length + 3 ∧ C[cells.length + 2]? = some ⟨.const 0, cells.length + 2⟩ ∧
    C[cells.length]? = some ⟨.var 0, ri⟩ ∧ C[cells.length + 1]? = some ⟨.var 0, rj⟩ ∧
    (∀ k, k = i ∨ k = j → ∃ d, C[k]? = some ⟨d, cells.length + 2⟩) ∧
    (∀ k, k < cells.length → k ≠ i → k ≠ j → C[k]? = cells[k]?) := by
  subst hC
  refine ⟨by simp [beReplaceAs_length], ?_, ?_, ?_, ?_, ?_⟩
  · rw [beReplaceAs_ne (by omega), beReplaceAs_ne (by omega)]; simp [List.append_assoc]
  · rw [beReplaceAs_ne (by omega), beReplaceAs_ne (by omega)]; simp [List.append_assoc]
  · rw [beReplaceAs_ne (by omega), beReplaceAs_ne (by omega)]; simp [List.append_assoc]
  · have get : ∀ k, k < cells.length →
        (cells ++ [⟨.var 0, ri⟩] ++ [⟨.var 0, rj⟩] ++ [⟨.const 0, cells.length + 2⟩] : List Cell)[k]? = cells[k]? := by
      intro k hk
      simp [List.append_assoc, List.getElem?_append_left hk]
    intro k hk
    by_cases hkj : k = j
    · subst hkj
      have : ∃ c, (beReplaceAs (cells ++ [⟨.var 0, ri⟩] ++ [⟨.var 0, rj⟩] ++ [⟨.const 0, cells.length + 2⟩])
        i (cells.length + 2))[k]? = some c := by
        refine ⟨_, List.getElem?_eq_getElem ?_⟩
        simp [beReplaceAs_length]; omega
      obtain ⟨c, hc⟩ := this
      exact ⟨_, beReplaceAs_same hc⟩
    · have hki : k = i := by rcases hk with h | h; exact h; exact absurd h hkj
      subst hki
      rw [beReplaceAs_ne hkj]
      have : ∃ c, cells[k]? = some c := ⟨_, List.getElem?_eq_getElem hi⟩
      obtain ⟨c, hc⟩ := this
      exact ⟨_, beReplaceAs_same (by rw [get k hi]; exact hc)⟩
  · intro k hk h1 h2
    rw [beReplaceAs_ne h2, beReplaceAs_ne h1]
    simp [List.append_assoc, List.getElem?_append_left hk]

end

/-! ### kept nodes -/

/-- The nodes a store may have: pointers end somewhere, records point to nodes. -/
structure Store.Ok (s : Store) : Prop where
  len : s.ends.length = s.nodes.length
  ends : ∀ e ∈ s.ends, e < s.nodes.length
  map : ∀ r ∈ s.map, r.2 < s.nodes.length

theorem Store.ok_new : Store.new.Ok := ⟨rfl, by simp [Store.new], by simp [Store.new]⟩

theorem find_mem {eq : Nat → Nat → Bool} {a i : Nat} : ∀ {m : List (Nat × Nat)}, find eq a m = some i →
    ∃ k, (k, i) ∈ m ∧ eq k a = true
  | [], h => by cases h
  | r :: m, h => by
    unfold find at h
    split at h
    · rename_i e; cases h; exact ⟨r.1, by simp, e⟩
    · obtain ⟨k, h1, h2⟩ := find_mem h
      exact ⟨k, by simp [h1], h2⟩

theorem mem_put {eq : Nat → Nat → Bool} {a i : Nat} : ∀ {m : List (Nat × Nat)} {r : Nat × Nat}, r ∈ put eq a i m →
    r ∈ m ∨ r.2 = i
  | [], r, h => by simp [put] at h; exact .inr (by rw [h])
  | s :: m, r, h => by
    unfold put at h
    split at h
    · rcases List.mem_cons.1 h with rfl | h
      · exact .inr rfl
      · exact .inl (by simp [h])
    · rcases List.mem_cons.1 h with rfl | h
      · exact .inl (by simp)
      · rcases mem_put h with h | h
        · exact .inl (by simp [h])
        · exact .inr h

theorem find_put {eq : Nat → Nat → Bool} (hr : ∀ a, eq a a = true) (hs : ∀ a b, eq a b = true → eq b a = true)
    (ht : ∀ a b c, eq a b = true → eq b c = true → eq a c = true) (a b i : Nat) : ∀ m : List (Nat × Nat),
    find eq b (put eq a i m) = if eq a b then some i else find eq b m
  | [] => by
    by_cases h : eq a b = true <;> simp [put, find, h]
  | r :: m => by
    have ih := find_put hr hs ht a b i m
    by_cases h1 : eq r.1 a = true
    · by_cases h2 : eq a b = true
      · have := ht _ _ _ h1 h2
        simp [put, find, h1, h2, this]
      · have : ¬ eq r.1 b = true := fun e => h2 (ht _ _ _ (hs _ _ h1) e)
        simp [put, find, h1, h2, this]
    · by_cases h2 : eq r.1 b = true
      · have : ¬ eq a b = true := fun e => h1 (ht _ _ _ h2 (hs _ _ e))
        simp [put, find, h1, h2, this]
      · simp [put, find, h1, h2, ih]

theorem Store.at_make_old {s : Store} (h : s.Ok) (k : Kept) {i : Nat} (hi : i < s.nodes.length) :
    (s.make k).1.at i = s.at i := by
  have hi' : i < s.ends.length := by rw [h.len]; exact hi
  have : s.ends[i] < s.nodes.length := h.ends _ (List.getElem_mem hi')
  simp [Store.make, Store.at, List.getElem?_append_left hi', hi', List.getElem?_append_left this]

theorem Store.at_make_new {s : Store} (h : s.Ok) (k : Kept) : (s.make k).1.at s.nodes.length = some k := by
  simp [Store.make, Store.at, ← h.len]

theorem Store.Ok.make {s : Store} (h : s.Ok) (k : Kept) : (s.make k).1.Ok := by
  refine ⟨by simp [Store.make, h.len], ?_, ?_⟩
  · intro e he
    simp only [Store.make, List.mem_append, List.mem_singleton, List.length_append, List.length_singleton] at he ⊢
    rcases he with he | rfl
    · have := h.ends e he; omega
    · omega
  · intro r hr
    have := h.map r hr
    simp only [Store.make, List.length_append, List.length_singleton]
    omega

theorem Store.write_length (s : Store) (e a : Nat) : (s.write e a).nodes.length = s.nodes.length := by
  unfold Store.write; split <;> simp

theorem Store.write_ends (s : Store) (e a : Nat) : (s.write e a).ends = s.ends := by
  unfold Store.write; split <;> rfl

theorem Store.write_map (s : Store) (e a : Nat) : (s.write e a).map = s.map := by
  unfold Store.write; split <;> rfl

theorem Store.write_ne {s : Store} {e a f : Nat} (hf : f ≠ e) : (s.write e a).nodes[f]? = s.nodes[f]? := by
  unfold Store.write
  split
  · simp [List.getElem?_set_ne (Ne.symm hf)]
  · rfl

theorem keep_cases {eq : Nat → Nat → Bool} {dflt : Nat} {s s' : Store} {a i : Nat}
    (h : keep eq dflt s a = some (s', i)) :
    (s' = { (s.make (.payload a)).1 with map := put eq a s.nodes.length s.map } ∧ i = s.nodes.length) ∨
    (s' = s ∧ find eq a s.map = some i ∧ ∃ k, s.at i = some k ∧ k.toBool = true ∧ eq (useAs dflt k) a = true) := by
  unfold keep at h
  dsimp only at h
  split at h
  · split at h
    · cases h; exact .inl ⟨rfl, rfl⟩
    · cases h
  · rename_i j hj
    split at h
    · cases h; exact .inl ⟨rfl, rfl⟩
    · rename_i k hk
      split at h
      · cases h; exact .inl ⟨rfl, rfl⟩
      · rename_i hc
        cases h
        simp only [Bool.or_eq_true, Bool.not_eq_true', not_or, Bool.not_eq_false] at hc
        exact .inr ⟨rfl, hj, k, hk, hc.1, hc.2⟩

theorem Store.Ok.step {eq : Nat → Nat → Bool} {dflt : Nat} {s s' : Store} (h : s.Ok) {d : Do} {o : Option Nat}
    (hs : s.step eq dflt d = some (s', o)) : s'.Ok := by
  cases d with
  | keep a =>
    simp only [Store.step, Option.map_eq_some_iff] at hs
    obtain ⟨⟨s1, i⟩, h1, h2⟩ := hs
    cases h2
    rcases keep_cases h1 with ⟨rfl, rfl⟩ | ⟨rfl, _⟩
    · have hm := h.make (.payload a)
      refine ⟨hm.len, hm.ends, fun r hr => ?_⟩
      rcases mem_put hr with hr | hr
      · exact hm.map r hr
      · simp only [hr, Store.make, List.length_append, List.length_singleton]; omega
    · exact h
  | make k => cases hs; exact h.make k
  | set i a =>
    simp only [Store.step] at hs
    split at hs
    · cases hs; exact h
    · cases hs
      exact ⟨by rw [Store.write_length, Store.write_ends]; exact h.len,
        by rw [Store.write_length, Store.write_ends]; exact h.ends,
        by rw [Store.write_length, Store.write_map]; exact h.map⟩
  | replace i j =>
    simp only [Store.step] at hs
    split at hs
    · rename_i e f he hf
      cases hs
      refine ⟨by simp [Store.write_length, h.len], ?_, by simp only [Store.write_length, Store.write_map]; exact h.map⟩
      intro x hx
      simp only [Store.write_length, List.mem_map] at hx ⊢
      obtain ⟨y, hy, rfl⟩ := hx
      split
      · exact h.ends f (List.mem_of_getElem? hf)
      · exact h.ends y hy
    · cases hs; exact h

theorem Store.Ok.run {eq : Nat → Nat → Bool} {dflt : Nat} : ∀ {ds : List Do} {s s' : Store}, s.Ok →
    s.run eq dflt ds = some s' → s'.Ok
  | [], s, s', h, hr => by cases hr; exact h
  | d :: ds, s, s', h, hr => by
    simp only [Store.run, Option.bind_eq_some_iff] at hr
    obtain ⟨⟨s1, o⟩, h1, h2⟩ := hr
    exact Store.Ok.run (h.step h1) h2

end ELC.Node
