import Verif.Table.Lemmas
import Verif.Arith.Spec
/-! The tables of records and the maps: C40, C41. -/
namespace ELC.Table

variable {R K V : Type} [DecidableEq K]

/-! ### C40 -/

theorem records_new : records (new : Table R) = [] := records_replicate 5

theorem run_keys (C : Config R K) (hg : ∀ n, 0 < C.grow n) (u : Bool) : ∀ (ops : List (Op R K × (K → Nat))) (t : Table R)
    (s : List K), (u = true ∨ ∃ h : K → Nat, Placed C h t ∧ ∀ o ∈ ops, o.2 = h) → 0 < t.length → Sized t →
    ((records t).map C.key).Perm s →
    ∃ outs t', run C u ops t = some (outs, t') ∧ Spec.AllReport C.key (ops.map (·.1)) outs s ∧
      ((records t').map C.key).Perm (Spec.keysAfter C.key (ops.map (·.1)) s) ∧ Sized t' := by
  intro ops
  induction ops with
  | nil => intro t s _ _ hs hp; exact ⟨[], t, rfl, rfl, hp, hs⟩
  | cons o os ih =>
    intro t s hu h0 hs hp
    have hmem : ∀ k, (∃ r ∈ records t, C.key r = k) ↔ k ∈ s := by
      intro k; rw [← hp.mem_iff, List.mem_map]
    have hu' : u = true ∨ ∀ i b, t[i]? = some b → ∀ r ∈ b.items, o.2 (C.key r) % t.length = i := by
      rcases hu with hu | ⟨h, h1, h2⟩
      · exact Or.inl hu
      · rw [h2 o (by simp)]; exact Or.inr h1
    obtain ⟨op, hash⟩ := o
    cases op with
    | add a =>
      obtain ⟨t1, e1, e2, e3, e4⟩ := add_some C hg hash h0 a
      have hnext : u = true ∨ ∃ h : K → Nat, Placed C h t1 ∧ ∀ o ∈ os, o.2 = h := by
        rcases hu with hu | ⟨h, h1, h2⟩
        · exact Or.inl hu
        · have hh : hash = h := h2 _ List.mem_cons_self
          subst hh
          exact Or.inr ⟨_, (add_stable C hg _ h0 h1 a e1).1, fun o ho => h2 o (by simp [ho])⟩
      obtain ⟨outs, t2, f1, f2, f3, f4⟩ := ih t1 (C.key a :: s) hnext e2 (e4 hs)
        (((e3.map C.key).trans (by simp)).trans (hp.cons (C.key a)))
      refine ⟨Out.unit :: outs, t2, ?_, ?_, f3, f4⟩
      · simp only [run, step, e1, Option.map_some, Option.bind_some, f1]
      · exact ⟨_, _, rfl, rfl, f2⟩
    | find k =>
      obtain ⟨o, t1, e1, e2, e3, e4, e5, e6⟩ := find_keys C u hash h0 hu' k
      have hnext : u = true ∨ ∃ h : K → Nat, Placed C h t1 ∧ ∀ o ∈ os, o.2 = h := by
        rcases hu with hu | ⟨h, h1, h2⟩
        · exact Or.inl hu
        · have hh : hash = h := h2 _ List.mem_cons_self
          subst hh
          cases u with
          | true => exact Or.inl rfl
          | false => exact Or.inr ⟨_, (find_stable C _ h1 k e1).1, fun o ho => h2 o (by simp [ho])⟩
      obtain ⟨outs, t2, f1, f2, f3, f4⟩ := ih t1 s hnext (by omega) (e4 hs) ((e3.map C.key).trans hp)
      refine ⟨Out.found o :: outs, t2, ?_, ?_, f3, f4⟩
      · simp only [run, step, e1, Option.map_some, Option.bind_some, f1]
      · exact ⟨_, _, rfl, ⟨o, rfl, e5.trans (hmem k), fun x hx => (e6 x hx).2⟩, f2⟩
    | remove k =>
      obtain ⟨o, t1, e1, e2, e3, e4⟩ := remove_keys C u hash h0 hs hu' k
      have hnext : u = true ∨ ∃ h : K → Nat, Placed C h t1 ∧ ∀ o ∈ os, o.2 = h := by
        rcases hu with hu | ⟨h, h1, h2⟩
        · exact Or.inl hu
        · have hh : hash = h := h2 _ List.mem_cons_self
          subst hh
          cases u with
          | true => exact Or.inl rfl
          | false => exact Or.inr ⟨_, (remove_stable C _ h1 k e1).1, fun o ho => h2 o (by simp [ho])⟩
      have hkeys : ((records t1).map C.key).Perm (s.erase k) := by
        rcases e4 with ⟨_, r, g2, g3⟩ | ⟨_, rfl, g3⟩
        · have h1 := (g3.map C.key).trans hp
          rw [List.map_cons, g2] at h1
          have := h1.erase k
          simpa using this
        · rw [List.erase_of_not_mem]
          · exact hp
          · rw [← hmem]; rintro ⟨r, hr, hk⟩; exact g3 r hr hk
      obtain ⟨outs, t2, f1, f2, f3, f4⟩ := ih t1 (s.erase k) hnext (by omega) e3 hkeys
      refine ⟨Out.removed o :: outs, t2, ?_, ?_, f3, f4⟩
      · simp only [run, step, e1, Option.map_some, Option.bind_some, f1]
      · refine ⟨_, _, rfl, ?_, f2⟩
        show Out.removed o = Out.removed (decide (k ∈ s))
        congr 1
        rcases e4 with ⟨rfl, r, g2, g3⟩ | ⟨rfl, _, g3⟩
        · rw [eq_comm, decide_eq_true_eq, ← hmem]
          exact ⟨r, g3.mem_iff.1 (by simp), g2⟩
        · rw [eq_comm, decide_eq_false_iff_not, ← hmem]
          rintro ⟨r, hr, hk⟩; exact g3 r hr hk

/-- C40: for any history, any growth points, and even a hash that changes from call to call (for a type declared to have an
unstable hash), a removal succeeds exactly if a record with the key is there, a search returns a record with the key exactly
if there is one, and `size()` counts the records. -/
theorem table_membership_correct (C : Config R K) (hg : ∀ n, 0 < C.grow n) (u : Bool) (ops : List (Op R K × (K → Nat)))
    (hu : u = true ∨ ∃ h : K → Nat, ∀ o ∈ ops, o.2 = h) :
    ∃ outs t, run C u ops new = some (outs, t) ∧ Spec.AllReport C.key (ops.map (·.1)) outs [] ∧
      size t = (Spec.keysAfter C.key (ops.map (·.1)) []).length := by
  obtain ⟨outs, t, h1, h2, h3, h4⟩ := run_keys C hg u ops new [] (by
    rcases hu with hu | ⟨h, hu⟩
    · exact Or.inl hu
    · exact Or.inr ⟨h, placed_replicate C h 5, hu⟩) (by simp [new]) (sized_replicate 5) (by rw [records_new]; exact List.Perm.refl _)
  refine ⟨outs, t, h1, h2, ?_⟩
  rw [sized_size h4, ← h3.length_eq, List.length_map]

/-- Without the search of all buckets, a changing hash would lose records: the case above is not void. -/
example : (run ⟨fun r : Nat × Nat => r.1, 10, fun n => 2 * n⟩ true
      [(.add (7, 1), fun _ => 0), (.find 7, fun _ => 1), (.remove 7, fun _ => 2)] new).map (·.1)
    = some [.unit, .found (some (7, 1)), .removed true] := by decide +kernel

/-- The table holds the records of `s`, the order within each key included. -/
def Holds (C : Config R K) (hash : K → Nat) (t : Table R) (s : List R) : Prop :=
  0 < t.length ∧ Sized t ∧ Placed C hash t ∧ ∀ k, ofKey C k (records t) = ofKey C k s

theorem holds_new (C : Config R K) (hash : K → Nat) : Holds C hash new [] :=
  ⟨by simp [new], sized_replicate 5, placed_replicate C hash 5, fun k => by rw [records_new]⟩

theorem holds_find {C : Config R K} {hash : K → Nat} {t : Table R} {s : List R} (h : Holds C hash t s) (k : K) :
    ∃ t', find C false hash t k = some (s.find? (fun r => decide (C.key r = k)), t') ∧ Holds C hash t' s ∧
      (records t').length = (records t).length ∧
      ∀ r, s.find? (fun r => decide (C.key r = k)) = some r → ∃ b, t'[hash k % t'.length]? = some b ∧ b.items.head? = some r := by
  obtain ⟨h0, hs, hp, hk⟩ := h
  obtain ⟨o, t1, e1, e2, e3, e4, e5, e6⟩ := find_keys C false hash h0 (Or.inr hp) k
  obtain ⟨g1, g2, g3, g4⟩ := find_stable C hash hp k e1
  have ho : o = s.find? (fun r => decide (C.key r = k)) := by
    rw [g2, head_filter, head_filter]
    exact congrArg List.head? (hk k)
  subst ho
  exact ⟨t1, e1, ⟨by omega, e4 hs, g1, fun j => by rw [g3, hk]⟩, e3.length_eq, g4⟩

theorem holds_remove {C : Config R K} {hash : K → Nat} {t : Table R} {s : List R} (h : Holds C hash t s) (k : K) :
    ∃ t', remove C false hash t k = some (s.any (fun r => decide (C.key r = k)), t') ∧
      Holds C hash t' (s.eraseP fun r => decide (C.key r = k)) ∧ (records t').length ≤ (records t).length := by
  obtain ⟨h0, hs, hp, hk⟩ := h
  obtain ⟨o, t1, e1, e2, e3, e4⟩ := remove_keys C false hash h0 hs (Or.inr hp) k
  obtain ⟨g1, g2, g3⟩ := remove_stable C hash hp k e1
  have hany : ∀ l : List R, l.any (fun r => decide (C.key r = k)) = !(ofKey C k l).isEmpty := by
    intro l
    unfold ofKey
    induction l with
    | nil => rfl
    | cons x xs ih =>
      by_cases hx : C.key x = k
      · rw [List.filter_cons_of_pos (by simp [hx])]; simp [hx]
      · rw [List.filter_cons_of_neg (by simp [hx]), ← ih]; simp [hx]
  have ho : o = s.any (fun r => decide (C.key r = k)) := by rw [g2, hany, hany, hk]
  subst ho
  refine ⟨t1, e1, ⟨by omega, e3, g1, fun j => ?_⟩, ?_⟩
  · rw [g3, ofKey_eraseP, ofKey_eraseP, hk, hk]
  · rcases e4 with ⟨_, r, _, g⟩ | ⟨_, rfl, _⟩
    · have := g.length_eq; rw [List.length_cons] at this; omega
    · exact Nat.le_refl _

theorem holds_add {C : Config R K} (hg : ∀ n, 0 < C.grow n) {hash : K → Nat} {t : Table R} {s : List R}
    (h : Holds C hash t s) (a : R) (hok : (∀ r ∈ s, C.key r ≠ C.key a) ∧ (∀ k, (ofKey C k s).length ≤ 1) ∨
      (records t).length < C.limit) :
    ∃ t', add C hash t a = some t' ∧ Holds C hash t' (a :: s) ∧ (records t').length = (records t).length + 1 := by
  obtain ⟨h0, hs, hp, hk⟩ := h
  obtain ⟨t1, e1, e2, e3, e4⟩ := add_some C hg hash h0 a
  obtain ⟨g1, g2⟩ := add_stable C hg hash h0 hp a e1
  have hcons : ∀ k, ofKey C k (a :: records t) = ofKey C k (a :: s) := by
    intro k
    have := hk k
    unfold ofKey at this ⊢
    rw [List.filter_cons, List.filter_cons, this]
  refine ⟨t1, e1, ⟨e2, e4 hs, g1, ?_⟩, by rw [e3.length_eq]; rfl⟩
  rcases g2 with g2 | ⟨g2, g3⟩
  · intro k; rw [g2, hcons]
  · have hlim := g3 hs
    rcases hok with ⟨hn, hl⟩ | hl
    · intro k
      rw [g2, hcons]
      have hlen : (ofKey C k (a :: s)).length ≤ 1 := by
        have := hl k
        unfold ofKey at this ⊢
        by_cases hak : C.key a = k
        · rw [List.filter_cons_of_pos (by simp [hak]), List.filter_eq_nil_iff.2]
          · simp
          · intro r hr; simpa [← hak] using hn r hr
        · rwa [List.filter_cons_of_neg (by simp [hak])]
      match ofKey C k (a :: s), hlen with
      | [], _ => rfl
      | [x], _ => rfl
    · omega

theorem run_holds (C : Config R K) (hg : ∀ n, 0 < C.grow n) (hash : K → Nat) : ∀ (ops : List (Op R K)) (t : Table R) (s : List R),
    Holds C hash t s →
    (Spec.NoDuplicates C.key ops s ∧ (∀ k, (ofKey C k s).length ≤ 1)) ∨ (records t).length + Spec.adds ops ≤ C.limit →
    ∃ outs t', run C false (ops.map fun o => (o, hash)) t = some (outs, t') ∧ outs = (Spec.run C.key ops s).1 ∧
      Holds C hash t' (Spec.run C.key ops s).2 := by
  intro ops
  induction ops with
  | nil => intro t s h _; exact ⟨[], t, rfl, rfl, h⟩
  | cons o os ih =>
    intro t s h hok
    cases o with
    | add a =>
      obtain ⟨t1, e1, e2, e3⟩ := holds_add hg h a (by
        rcases hok with ⟨h1, h2⟩ | h1
        · exact Or.inl ⟨h1.1 a rfl, h2⟩
        · right; rw [Spec.adds] at h1; omega)
      obtain ⟨outs, t2, f1, f2, f3⟩ := ih t1 (a :: s) e2 (by
        rcases hok with ⟨h1, h2⟩ | h1
        · refine Or.inl ⟨h1.2, fun k => ?_⟩
          have := h2 k
          unfold ofKey at this ⊢
          by_cases hak : C.key a = k
          · rw [List.filter_cons_of_pos (by simp [hak]), List.filter_eq_nil_iff.2]
            · simp
            · intro r hr; simpa [← hak] using h1.1 a rfl r hr
          · rwa [List.filter_cons_of_neg (by simp [hak])]
        · right; rw [Spec.adds] at h1; omega)
      refine ⟨Out.unit :: outs, t2, ?_, ?_, f3⟩
      · simp only [List.map_cons, run, step, e1, Option.map_some, Option.bind_some, f1]
      · rw [f2]; rfl
    | find k =>
      obtain ⟨t1, e1, e2, e3, _⟩ := holds_find h k
      obtain ⟨outs, t2, f1, f2, f3⟩ := ih t1 s e2 (by
        rcases hok with ⟨h1, h2⟩ | h1
        · exact Or.inl ⟨h1.2, h2⟩
        · right; rw [show Spec.adds (Op.find k :: os) = Spec.adds os from rfl] at h1; omega)
      refine ⟨Out.found (s.find? fun r => decide (C.key r = k)) :: outs, t2, ?_, ?_, f3⟩
      · simp only [List.map_cons, run, step, e1, Option.map_some, Option.bind_some, f1]
      · rw [f2]; rfl
    | remove k =>
      obtain ⟨t1, e1, e2, e3⟩ := holds_remove h k
      obtain ⟨outs, t2, f1, f2, f3⟩ := ih t1 (s.eraseP fun r => decide (C.key r = k)) e2 (by
        rcases hok with ⟨h1, h2⟩ | h1
        · refine Or.inl ⟨h1.2, fun j => ?_⟩
          rw [ofKey_eraseP]
          split
          · have := h2 k; rw [List.length_tail]; omega
          · exact h2 j
        · right; rw [show Spec.adds (Op.remove k :: os) = Spec.adds os from rfl] at h1; omega)
      refine ⟨Out.removed (s.any fun r => decide (C.key r = k)) :: outs, t2, ?_, ?_, f3⟩
      · simp only [List.map_cons, run, step, e1, Option.map_some, Option.bind_some, f1]
      · rw [f2]; rfl

/-- C40, for histories that never add a key that is present: every call returns what the plain table returns, however often
the table grows and records move.  Missing: histories with several records of one key that grow the table, see
`table_order_refuted`. -/
theorem table_distinct_partial (C : Config R K) (hg : ∀ n, 0 < C.grow n) (hash : K → Nat) (ops : List (Op R K))
    (hd : Spec.NoDuplicates C.key ops []) :
    ∃ t, run C false (ops.map fun o => (o, hash)) new = some ((Spec.run C.key ops []).1, t) ∧
      size t = (Spec.run C.key ops []).2.length := by
  obtain ⟨outs, t, h1, rfl, h3⟩ := run_holds C hg hash ops new [] (holds_new C hash) (Or.inl ⟨hd, fun k => by simp [ofKey]⟩)
  refine ⟨t, h1, ?_⟩
  obtain ⟨_, h4, _, h6⟩ := h3
  rw [sized_size h4]
  apply List.Perm.length_eq
  classical
  rw [List.perm_iff_count]
  intro a
  have e : ∀ l : List R, l.count a = (ofKey C (C.key a) l).count a := by
    intro l
    unfold ofKey
    rw [List.count_filter]
    simp
  rw [e, h6, ← e]

/-- C40, for histories that add no more records than one bucket may hold: every call returns what the plain table returns,
the latest record first among those with the same key. -/
theorem table_recent_partial (C : Config R K) (hg : ∀ n, 0 < C.grow n) (hash : K → Nat) (ops : List (Op R K))
    (hd : Spec.adds ops ≤ C.limit) :
    ∃ t, run C false (ops.map fun o => (o, hash)) new = some ((Spec.run C.key ops []).1, t) := by
  obtain ⟨outs, t, h1, rfl, h3⟩ := run_holds C hg hash ops new [] (holds_new C hash)
    (Or.inr (by rw [records_new]; simpa using hd))
  exact ⟨t, h1⟩

/-- Both are met by ordinary histories. -/
example : Spec.NoDuplicates (fun r : Nat × Nat => r.1) [.add (1, 5), .add (6, 7), .find 1, .remove 1, .add (1, 9)] [] := by
  refine ⟨?_, ?_, ?_, ?_, ?_, trivial⟩ <;> intro a ha r hr <;> cases ha
  · cases hr
  · simp [Spec.step] at hr; subst hr; decide
  · simp [Spec.step] at hr; subst hr; decide

example : Spec.adds [Op.add (1, 5), .add (1, 7), .find 1, .remove (R := Nat × Nat) (K := Nat) 1] ≤ 10 := by decide

theorem run_append (C : Config R K) (u : Bool) : ∀ (os1 os2 : List (Op R K × (K → Nat))) t, run C u (os1 ++ os2) t =
      (run C u os1 t).bind fun x => (run C u os2 x.2).map fun y => (x.1 ++ y.1, y.2) := by
  intro os1
  induction os1 with
  | nil => intro os2 t; simp [run]
  | cons o os ih =>
    intro os2 t
    rw [List.cons_append, run, run]
    cases step C u o.2 t o.1 with
    | none => rfl
    | some x =>
      simp only [Option.bind_some, ih]
      cases run C u os x.2 with
      | none => rfl
      | some y =>
        simp only [Option.bind_some, Option.map_some]
        cases run C u os2 y.2 <;> rfl

theorem adds_same (C : Config R K) (hg : ∀ n, 0 < C.grow n) (hash : K → Nat) (r : Nat → R) : ∀ n, n ≤ C.limit →
    ∃ t, run C false ((List.range n).map fun i => (.add (r i), hash)) new = some (List.replicate n .unit, t) ∧
      Holds C hash t ((List.range n).map r).reverse ∧ (records t).length = n := by
  intro n
  induction n with
  | zero => intro _; exact ⟨new, rfl, holds_new C hash, by rw [records_new]; rfl⟩
  | succ n ih =>
    intro hn
    obtain ⟨t, h1, h2, h3⟩ := ih (by omega)
    obtain ⟨t', e1, e2, e3⟩ := holds_add hg h2 (r n) (Or.inr (by omega))
    refine ⟨t', ?_, ?_, by omega⟩
    · rw [List.range_succ, List.map_append, run_append, h1]
      simp only [Option.bind_some, List.map_cons, List.map_nil, run, step, e1, Option.map_some]
      rw [List.replicate_succ']
    · rw [List.range_succ, List.map_append, List.reverse_append]
      exact e2

/-- C40 is false in general: with one record more of the same key than a bucket may hold, the table grows, which reverses
their order, and a search returns the oldest of them, not the latest. -/
theorem table_order_refuted (C : Config R K) (hg : ∀ n, 0 < C.grow n) (hash : K → Nat) (k : K) (r : Nat → R)
    (hr : ∀ i, C.key (r i) = k) :
    (∃ t, run C false (((List.range (C.limit + 1)).map fun i => (.add (r i), hash)) ++ [(.find k, hash)]) new =
        some (List.replicate (C.limit + 1) .unit ++ [.found (some (r 0))], t)) ∧
      (Spec.run C.key ((List.range (C.limit + 1)).map fun i => Op.add (r i)) []).2.find? (fun x => decide (C.key x = k)) =
        some (r C.limit) := by
  constructor
  case right =>
    have : ∀ (l : List Nat) s, (Spec.run C.key (l.map fun i => (Op.add (r i) : Op R K)) s).2 = (l.map r).reverse ++ s := by
      intro l
      induction l with
      | nil => intro s; rfl
      | cons x xs ih => intro s; rw [List.map_cons, Spec.run]; dsimp only; rw [Spec.step, ih]; simp
    rw [this, List.range_succ, List.map_append, List.reverse_append]
    show List.find? _ (r C.limit :: _) = _
    rw [List.find?_cons_of_pos (by simp [hr])]
  case left =>
    obtain ⟨t, h1, h2, h3⟩ := adds_same C hg hash r C.limit (Nat.le_refl _)
    obtain ⟨h0, hs, hp, hk⟩ := h2
    obtain ⟨t1, e1, e2, e3, e4⟩ := add_some C hg hash h0 (r C.limit)
    obtain ⟨g1, g2⟩ := add_stable C hg hash h0 hp (r C.limit) e1
    -- the last addition does grow the table
    have hall : ∀ i, ofKey C k ((List.range i).map r).reverse = ((List.range i).map r).reverse := by
      intro i
      apply List.filter_eq_self.2
      intro x hx
      rw [List.mem_reverse, List.mem_map] at hx
      obtain ⟨j, _, rfl⟩ := hx
      simp [hr]
    have hrev : ofKey C k (records t1) = (ofKey C k (r C.limit :: records t)).reverse := by
      unfold add at e1
      rw [Option.bind_eq_some_iff] at e1
      obtain ⟨⟨t2, n⟩, p1, p2⟩ := e1
      have hn : C.limit < n := by
        obtain ⟨q1, q2⟩ := push_stable C hash h0 hp (r C.limit) p1
        have hi : hash (C.key (r C.limit)) % t.length < t.length := Nat.mod_lt _ h0
        have hb : t[hash (C.key (r C.limit)) % t.length]? = some t[hash (C.key (r C.limit)) % t.length] :=
          List.getElem?_eq_getElem hi
        generalize hbe : t[hash (C.key (r C.limit)) % t.length] = b at hb
        unfold push at p1
        rw [hb, Option.map_some] at p1
        injection p1 with p1
        injection p1 with p1 p1'
        have hbs := hs b (List.mem_of_getElem? hb)
        have hkb := (ofKey_records hp hb (k := k) (by rw [hr])).1
        rw [hk, hall] at hkb
        have hlen : C.limit ≤ b.items.length := by
          have := congrArg List.length hkb
          rw [List.length_reverse, List.length_map, List.length_range] at this
          rw [this]
          exact List.length_filter_le _ _
        rw [← p1']
        simp only [Bucket.add]
        omega
      dsimp only at p2
      rw [if_pos hn] at p2
      obtain ⟨q1, q2⟩ := push_stable C hash h0 hp (r C.limit) p1
      obtain ⟨d1, d2, d3⟩ := drainAll_stable C hash t2 (by simpa using hg _) (placed_replicate C hash _) p2
      rw [d3 k ?_, records_replicate, q2]
      · simp [ofKey]
      · intro i b j b' hi hj hb hb'
        have key : ∀ (i : Nat) (b : Bucket R), t2[i]? = some b → ofKey C k b.items ≠ [] → hash k % t2.length = i := by
          intro i b hi hb
          obtain ⟨x, hx⟩ := List.exists_mem_of_ne_nil _ hb
          have hx' := List.mem_filter.1 hx
          have := q1 i b hi x hx'.1
          have hkx : C.key x = k := by simpa using hx'.2
          rwa [hkx] at this
        rw [← key i b hi hb, ← key j b' hj hb']
    have hwhole : ofKey C k (records t1) = (List.range (C.limit + 1)).map r := by
      rw [hrev]
      have : ofKey C k (r C.limit :: records t) = ((List.range (C.limit + 1)).map r).reverse := by
        have h := hk k
        rw [hall] at h
        rw [List.range_succ, List.map_append, List.reverse_append]
        unfold ofKey at h ⊢
        rw [List.filter_cons_of_pos (by simp [hr]), h]
        rfl
      rw [this, List.reverse_reverse]
    obtain ⟨o, t3, f1, f2, f3, f4, f5, f6⟩ := find_keys C false hash e2 (Or.inr g1) k
    obtain ⟨_, go, _, _⟩ := find_stable C hash g1 k f1
    have ho : o = some (r 0) := by
      rw [go, head_filter]
      have : List.filter (fun r => decide (C.key r = k)) (records t1) = (List.range (C.limit + 1)).map r := hwhole
      rw [this, List.range_succ_eq_map]
      rfl
    subst ho
    refine ⟨t3, ?_⟩
    · rw [List.range_succ, List.map_append, List.append_assoc, run_append, h1]
      simp only [Option.bind_some, List.map_cons, List.map_nil, List.cons_append, List.nil_append, run, step, e1,
        Option.map_some, f1]
      rw [List.replicate_succ']
      simp

example : (run ⟨fun r : Nat × Nat => r.1, 2, fun n => 2 * n⟩ false
      [(.add (7, 1), id), (.add (7, 2), id), (.find 7, id), (.add (7, 3), id), (.find 7, id)] new).map (·.1)
    = some [.unit, .unit, .found (some (7, 2)), .unit, .found (some (7, 1))] := by decide +kernel

omit [DecidableEq K] in
theorem bucket_count {C : Config R K} {hash : K → Nat} {t : Table R} (hp : Placed C hash t) {i : Nat} {b : Bucket R}
    (hb : t[i]? = some b) : (records t).countP (fun r => decide (hash (C.key r) % t.length = i)) = b.items.length := by
  rw [(records_at hb).1, List.countP_append, List.countP_append]
  have h1 : (records (t.take i)).countP (fun r => decide (hash (C.key r) % t.length = i)) = 0 := by
    rw [List.countP_eq_zero]
    intro r hr
    obtain ⟨j, b2, hj, hb2, hr2⟩ := mem_take_records hr
    have := hp j b2 hb2 r hr2
    simp only [decide_eq_true_eq]
    omega
  have h2 : (records (t.drop (i + 1))).countP (fun r => decide (hash (C.key r) % t.length = i)) = 0 := by
    rw [List.countP_eq_zero]
    intro r hr
    obtain ⟨j, b2, hj, hb2, hr2⟩ := mem_drop_records hr
    have := hp j b2 hb2 r hr2
    simp only [decide_eq_true_eq]
    omega
  have h3 : b.items.countP (fun r => decide (hash (C.key r) % t.length = i)) = b.items.length := by
    rw [List.countP_eq_length]
    intro r hr
    simpa using hp i b hb r hr
  omega

theorem perm_of_ofKey {C : Config R K} {l l' : List R} (h : ∀ k, ofKey C k l = ofKey C k l') : l.Perm l' := by
  classical
  rw [List.perm_iff_count]
  intro a
  have e : ∀ l : List R, l.count a = (ofKey C (C.key a) l).count a := by
    intro l
    unfold ofKey
    rw [List.count_filter]
    simp
  rw [e, h, ← e]

/-- An addition and the number of buckets afterwards. -/
theorem add_grow (C : Config R K) (hg : ∀ n, 0 < C.grow n) (hash : K → Nat) {t : Table R} {s : List R} (h : Holds C hash t s) (a : R) :
    ∃ t', add C hash t a = some t' ∧ t'.length = (Spec.growStep C hash (t.length, s) (.add a)).2.1 ∧
      Holds C hash t' (Spec.growStep C hash (t.length, s) (.add a)).2.2 := by
  obtain ⟨h0, hs, hp, hk⟩ := h
  obtain ⟨t', e1, e2, e3, e4⟩ := add_some C hg hash h0 a
  have hadd := e1
  have hcons : ∀ k, ofKey C k (a :: records t) = ofKey C k (a :: s) := by
    intro k
    have := hk k
    unfold ofKey at this ⊢
    rw [List.filter_cons, List.filter_cons, this]
  unfold add at hadd
  rw [Option.bind_eq_some_iff] at hadd
  obtain ⟨⟨t1, n⟩, p1, p2⟩ := hadd
  obtain ⟨q1, q2⟩ := push_stable C hash h0 hp a p1
  obtain ⟨_, _, f1, f2, f3, f4⟩ := push_some h0 (hash (C.key a)) a
  rw [p1] at f1
  injection f1 with f1; injection f1 with f1 f1'; subst f1; subst f1'
  have hn : n = (a :: s).countP (fun r => decide (hash (C.key r) % t.length = hash (C.key a) % t.length)) := by
    have hi : hash (C.key a) % t.length < t.length := Nat.mod_lt _ h0
    have hb : t[hash (C.key a) % t.length]? = some t[hash (C.key a) % t.length] := List.getElem?_eq_getElem hi
    generalize t[hash (C.key a) % t.length] = b at hb
    unfold push at p1
    rw [hb, Option.map_some] at p1
    injection p1 with p1
    injection p1 with p1 p1'
    have hbs := hs b (List.mem_of_getElem? hb)
    have hc := bucket_count hp hb
    rw [List.countP_cons_of_pos (by simp), ← (perm_of_ofKey hk).countP_eq, hc, ← p1']
    simp only [Bucket.add]
    omega
  refine ⟨t', e1, ?_⟩
  dsimp only at p2
  simp only [Spec.growStep]
  rw [← hn]
  by_cases hl : C.limit < n
  · rw [if_pos hl] at p2 ⊢
    obtain ⟨d1, d2, d3⟩ := drainAll_stable C hash t1 (by simpa using hg _) (placed_replicate C hash _) p2
    refine ⟨by rw [d2, List.length_replicate, f2], e2, e4 hs, d1, fun k => ?_⟩
    rw [d3 k ?_, records_replicate, q2, hcons]
    · show (ofKey C k (a :: s)).reverse ++ [] = ofKey C k (a :: s).reverse
      rw [List.append_nil]
      unfold ofKey
      rw [List.filter_reverse]
    · intro i b j b' hi hj hb hb'
      have key : ∀ (i : Nat) (b : Bucket R), t1[i]? = some b → ofKey C k b.items ≠ [] → hash k % t1.length = i := by
        intro i b hi hb
        obtain ⟨x, hx⟩ := List.exists_mem_of_ne_nil _ hb
        have hx' := List.mem_filter.1 hx
        have := q1 i b hi x hx'.1
        have hkx : C.key x = k := by simpa using hx'.2
        rwa [hkx] at this
      rw [← key i b hi hb, ← key j b' hj hb']
  · rw [if_neg hl] at p2 ⊢
    injection p2 with p2
    subst p2
    exact ⟨f2, e2, e4 hs, q1, fun k => by rw [q2, hcons]⟩

theorem run_grow (C : Config R K) (hg : ∀ n, 0 < C.grow n) (hash : K → Nat) : ∀ (ops : List (Op R K)) (t : Table R) (s : List R),
    Holds C hash t s → ∃ t', run C false (ops.map fun o => (o, hash)) t = some ((Spec.growRun C hash ops (t.length, s)).1, t') ∧
      t'.length = (Spec.growRun C hash ops (t.length, s)).2.1 ∧ Holds C hash t' (Spec.growRun C hash ops (t.length, s)).2.2 := by
  intro ops
  induction ops with
  | nil => intro t s h; exact ⟨t, rfl, rfl, h⟩
  | cons o os ih =>
    intro t s h
    cases o with
    | add a =>
      obtain ⟨t1, e1, e2, e3⟩ := add_grow C hg hash h a
      obtain ⟨t2, f1, f2, f3⟩ := ih t1 _ e3
      rw [e2] at f1 f2 f3
      refine ⟨t2, ?_, f2, f3⟩
      simp only [List.map_cons, run, step, e1, Option.map_some, Option.bind_some, f1]
      rfl
    | find k =>
      obtain ⟨t1, e1, e2, e3, _⟩ := holds_find h k
      obtain ⟨o, t1', e1', e2', _⟩ := find_keys C false hash h.1 (Or.inr h.2.2.1) k
      rw [e1] at e1'
      injection e1' with e1'
      injection e1' with _ e1'
      subst e1'
      obtain ⟨t2, f1, f2, f3⟩ := ih t1 _ e2
      rw [e2'] at f1 f2 f3
      refine ⟨t2, ?_, f2, f3⟩
      simp only [List.map_cons, run, step, e1, Option.map_some, Option.bind_some, f1]
      rfl
    | remove k =>
      obtain ⟨t1, e1, e2, e3⟩ := holds_remove h k
      obtain ⟨o, t1', e1', e2', _⟩ := remove_keys C false hash h.1 h.2.1 (Or.inr h.2.2.1) k
      rw [e1] at e1'
      injection e1' with e1'
      injection e1' with _ e1'
      subst e1'
      obtain ⟨t2, f1, f2, f3⟩ := ih t1 _ e2
      rw [e2'] at f1 f2 f3
      refine ⟨t2, ?_, f2, f3⟩
      simp only [List.map_cons, run, step, e1, Option.map_some, Option.bind_some, f1]
      rfl

/-- **C40, what the table does** with a stable hash, for every history: what the plain table does that starts with five buckets and
changes to the opposite order whenever it grows; and when it grows. -/
theorem table_characterised (C : Config R K) (hg : ∀ n, 0 < C.grow n) (hash : K → Nat) (ops : List (Op R K)) :
    ∃ t, run C false (ops.map fun o => (o, hash)) new = some ((Spec.growRun C hash ops (5, [])).1, t) ∧
      t.length = (Spec.growRun C hash ops (5, [])).2.1 ∧ (records t).Perm (Spec.growRun C hash ops (5, [])).2.2 ∧
      size t = (Spec.growRun C hash ops (5, [])).2.2.length := by
  obtain ⟨t, h1, h2, h3⟩ := run_grow C hg hash ops new [] (holds_new C hash)
  have hp := perm_of_ofKey h3.2.2.2
  exact ⟨t, h1, h2, hp, by rw [sized_size h3.2.1]; exact hp.length_eq⟩

-- five buckets, then ten, then twenty, with the order changed each time
example : (Spec.growRun ⟨fun r : Nat × Nat => r.1, 2, fun n => 2 * n⟩ id
      [.add (7, 1), .add (7, 2), .add (7, 3), .find 7, .add (7, 4), .find 7] (5, [])) =
    ([.unit, .unit, .unit, .found (some (7, 1)), .unit, .found (some (7, 3))], 20, [(7, 3), (7, 2), (7, 1), (7, 4)]) := by
  decide +kernel

end ELC.Table
