import Verif.Val.Refine
/-!
Code lists.
-/
namespace ELC.Val

/-- Only the null data may differ, and there may be more cells. -/
def Agree (a b : List Cell) : Prop := ∀ (k : Nat) (c : Cell), k ≠ 0 → a[k]? = some c → b[k]? = some c

theorem Agree.refl (a : List Cell) : Agree a a := fun _ _ _ h => h
theorem Agree.trans {a b c : List Cell} (h : Agree a b) (h' : Agree b c) : Agree a c :=
  fun k d hk hd => h' k d hk (h k d hk hd)

theorem agree_append (a : List Cell) (d : Cell) : Agree a (a ++ [d]) := fun _ _ _ h => get_append h
theorem agree_replace (a : List Cell) (p : Nat) : Agree a (beReplaceAs a 0 p) :=
  fun k c hk h => by rw [beReplaceAs_ne hk]; exact h

theorem Agree.visits {a b : List Cell} (h : Agree a b) {i n r : Nat} (hc : Chain a i n r) :
    Visits a i 0 ↔ Visits b i 0 := by
  induction hc with
  | @root i c h1 h2 =>
    by_cases hi : i = 0
    · subst hi; exact ⟨fun _ => .here, fun _ => .here⟩
    · constructor
      · intro hv
        cases hv with
        | here => exact absurd rfl hi
        | step h3 h4 => rw [h1] at h3; cases h3; exact absurd h2 h4
      · intro hv
        cases hv with
        | here => exact absurd rfl hi
        | step h3 h4 => rw [h i c hi h1] at h3; cases h3; exact absurd h2 h4
  | @step i n r c h1 h2 _ ih =>
    by_cases hi : i = 0
    · subst hi; exact ⟨fun _ => .here, fun _ => .here⟩
    · constructor
      · intro hv
        cases hv with
        | here => exact absurd rfl hi
        | step h3 h4 h5 => rw [h1] at h3; cases h3; exact .step (h i _ hi h1) h2 (ih.1 h5)
      · intro hv
        cases hv with
        | here => exact absurd rfl hi
        | step h3 h4 h5 => rw [h i c hi h1] at h3; cases h3; exact .step h1 h2 (ih.2 h5)

theorem Agree.chain {a b : List Cell} (h : Agree a b) {i n r : Nat} (hc : Chain a i n r) (hv : ¬ Visits a i 0) :
    Chain b i n r := by
  induction hc with
  | @root i c h1 h2 => exact .root (h i c (fun e => hv (e ▸ .here)) h1) h2
  | @step i n r c h1 h2 _ ih =>
    exact .step (h i c (fun e => hv (e ▸ .here)) h1) h2 (ih fun hv' => hv (.step h1 h2 hv'))

theorem Chain.not_visits {a : List Cell} {i n r : Nat} (hc : Chain a i n r) (hv : ¬ Visits a i 0) : r ≠ 0 := by
  intro e; subst e
  obtain ⟨c, h1, h2⟩ := hc.isRoot
  exact hv ((hc.visits_root h1 h2).2 rfl)

theorem Chain.of_visits {a : List Cell} {i n r j : Nat} (hc : Chain a i n r) (hv : Visits a i j) :
    ∃ m, Chain a j m r := by
  induction hc with
  | root h1 h2 =>
    cases hv with
    | here => exact ⟨0, .root h1 h2⟩
    | step h3 h4 => rw [h1] at h3; cases h3; exact absurd h2 h4
  | step h1 h2 h5 ih =>
    cases hv with
    | here => exact ⟨_, .step h1 h2 h5⟩
    | step h3 h4 h5 => rw [h1] at h3; cases h3; exact ih h5

/-- What values on the null data read. -/
def NullReads (s : State) (v : Nat) : Prop := ∃ n r c, Chain s.cells 0 n r ∧ s.cells[r]? = some c ∧ c.data.get = v

theorem Good.nullReads {s : State} (h : Good s) : ∃ v, NullReads s v := by
  obtain ⟨n, r, h1, _⟩ := h.ends 0 h.pos
  obtain ⟨c, hc, _⟩ := h1.isRoot
  exact ⟨_, n, r, c, h1, hc, rfl⟩

theorem NullReads.unique {s : State} {v w : Nat} (h : NullReads s v) (h' : NullReads s w) : v = w := by
  obtain ⟨n, r, c, h1, h2, rfl⟩ := h
  obtain ⟨n', r', c', h1', h2', rfl⟩ := h'
  obtain ⟨_, rfl⟩ := h1.unique h1'
  rw [h2] at h2'; cases h2'; rfl

theorem nullReads_iff {s : State} (h : Good s) {v : Nat} : NullReads s v ↔ Reads (s.push 0) s.vals.length v := by
  rw [(h.push h.pos).reads]
  constructor
  · rintro ⟨n, r, c, h1, h2, h3⟩
    exact ⟨0, n, r, c, by simp [State.push], h1, h2, h3⟩
  · rintro ⟨i, n, r, c, h0, h1, h2, h3⟩
    simp [State.push] at h0
    subst h0
    exact ⟨n, r, c, h1, h2, h3⟩

/-- Putting cell `j` in the place of the null data. -/
theorem put_null {s : State} (h : Good s) {j n p : Nat} {c : Cell} (hp : Chain s.cells j n p)
    (hc : s.cells[p]? = some c) :
    Good { s with cells := beReplaceAs s.cells 0 p } ∧ NullReads { s with cells := beReplaceAs s.cells 0 p } c.data.get := by
  refine ⟨h.replace h.pos hp, ?_⟩
  obtain ⟨c', h1, h2⟩ := hp.isRoot
  rw [hc] at h1; cases h1
  by_cases h0 : p = 0
  · subst h0
    rw [beReplaceAs_self hc h2]
    exact ⟨0, 0, c, .root hc h2, hc, rfl⟩
  · obtain ⟨c0, hc0⟩ : ∃ c0, s.cells[0]? = some c0 := ⟨s.cells[0]'h.pos, by simp [h.pos]⟩
    have hpk : (beReplaceAs s.cells 0 p)[p]? = some c := by rw [beReplaceAs_ne h0]; exact hc
    exact ⟨1, p, c, .step (beReplaceAs_same hc0) h0 (.root hpk h2), hpk, rfl⟩

/-- The values that the elements name. -/
def Stmt.uses : Stmt → List Nat
  | .call x => [x]
  | _ => []

/-- One element that answers with a value. -/
theorem evalStmt_ok {s0 s : State} (h0 : Good s0) (h : Good s) (ha : Agree s0.cells s.cells) (hv : s.vals = s0.vals)
    {cur : Nat} (hcur : NullReads s cur) {st : Stmt} (h1 : st ≠ .ret) (h2 : ∀ j, st ≠ .goto j)
    (hu : ∀ x ∈ st.uses, x < s0.vals.length) :
    ∃ s1 j p w, evalStmt s st = .ok (s1, some j) ∧ getPtr s1.cells j = .ok p ∧
      Good { s1 with cells := beReplaceAs s1.cells 0 p } ∧ Agree s0.cells (beReplaceAs s1.cells 0 p) ∧
      s1.vals = s0.vals ∧ NullReads { s1 with cells := beReplaceAs s1.cells 0 p } w ∧
      ∀ t v, Outcome s0 w t v → Outcome s0 cur (st :: t) v := by
  cases st with
  | ret => exact absurd rfl h1
  | goto j => exact absurd rfl (h2 j)
  | node q =>
    have hg := h.make (.const q)
    have hch : Chain (s.make (.const q)).1.cells s.cells.length 0 s.cells.length := Chain.fresh _ _
    have hc : (s.make (.const q)).1.cells[s.cells.length]? = some ⟨.const q, s.cells.length⟩ := by simp [State.make]
    obtain ⟨g1, g2⟩ := put_null hg hch hc
    obtain ⟨n, r, e1, e2, _⟩ := hg.ends.getPtr (i := s.cells.length) (by simp [State.make])
    obtain ⟨_, rfl⟩ := hch.unique e1
    exact ⟨_, _, _, q, rfl, e2, g1, (ha.trans (agree_append _ _)).trans (agree_replace _ _), hv, g2,
      fun t v ho => .node ho⟩
  | call x =>
    have hx : x < s.vals.length := by rw [hv]; exact hu x (by simp [Stmt.uses])
    have hi : s.vals[x]? = some s.vals[x] := by simp [hx]
    have hi0 : s0.vals[x]? = some s.vals[x] := by rw [← hv]; exact hi
    obtain ⟨n, r, e1, e2⟩ := h.chain hi
    obtain ⟨c, hc, hcr⟩ := e1.isRoot
    obtain ⟨g1, g2⟩ := put_null h e1 hc
    refine ⟨s, _, r, c.data.get, ?_, e2, g1, ha.trans (agree_replace _ _), hv, g2, ?_⟩
    · simp only [evalStmt, State.to_some hi, bind, Except.bind, pure, Except.pure]
    · intro t v ho
      obtain ⟨n0, r0, f1, _⟩ := h0.chain hi0
      by_cases hon : OnNull s0 x
      · have hvis : Visits s0.cells s.vals[x] 0 := by
          obtain ⟨i, a1, a2⟩ := hon
          rw [hi0] at a1; cases a1; exact a2
        have hvis' := (ha.visits f1).1 hvis
        obtain ⟨m, hm⟩ := e1.of_visits hvis'
        have : c.data.get = cur := NullReads.unique (s := s) ⟨m, r, c, hm, hc, rfl⟩ hcur
        rw [this] at ho
        exact .callNull hon ho
      · have hvis : ¬ Visits s0.cells s.vals[x] 0 := fun hvis => hon ⟨_, hi0, hvis⟩
        have f1' := ha.chain f1 hvis
        obtain ⟨_, rfl⟩ := e1.unique f1'
        refine .call hon (h0.reads.2 ⟨_, n0, r, c, hi0, f1, ?_, rfl⟩) ho
        obtain ⟨c0, k1, _⟩ := f1.isRoot
        have k2 := ha r c0 (f1.not_visits hvis) k1
        rw [hc] at k2; cases k2
        exact k1

/-- A code list that comes to an end. -/
theorem evalFrom_ok {l : List Stmt} {k : Nat} {t : List Stmt} (hr : Runs l k t) {s0 : State} (h0 : Good s0)
    (hu : ∀ st ∈ t, ∀ x ∈ st.uses, x < s0.vals.length) :
    ∃ F, ∀ fuel, F ≤ fuel → ∀ s cur, Good s → Agree s0.cells s.cells → s.vals = s0.vals → NullReads s cur →
      ∃ s' v, evalFrom l fuel s k = .ok s' ∧ Good s' ∧ Agree s0.cells s'.cells ∧ s'.vals = s0.vals ∧
        NullReads s' v ∧ Outcome s0 cur t v := by
  induction hr with
  | ret h =>
    refine ⟨1, fun fuel hf s cur hg ha hv hcur => ?_⟩
    obtain ⟨f, rfl⟩ : ∃ f, fuel = f + 1 := ⟨fuel - 1, by omega⟩
    exact ⟨s, cur, by simp [evalFrom, h], hg, ha, hv, hcur, .nil⟩
  | goto h _ ih =>
    obtain ⟨F, ih⟩ := ih hu
    refine ⟨F + 1, fun fuel hf s cur hg ha hv hcur => ?_⟩
    obtain ⟨f, rfl⟩ : ∃ f, fuel = f + 1 := ⟨fuel - 1, by omega⟩
    obtain ⟨s', v, e1, e2⟩ := ih f (by omega) s cur hg ha hv hcur
    exact ⟨s', v, by simp [evalFrom, h, e1], e2⟩
  | @next k st t h h1 h2 hk _ ih =>
    obtain ⟨F, ih⟩ := ih fun st' hst => hu st' (by simp [hst])
    refine ⟨F + 1, fun fuel hf s cur hg ha hv hcur => ?_⟩
    obtain ⟨f, rfl⟩ : ∃ f, fuel = f + 1 := ⟨fuel - 1, by omega⟩
    obtain ⟨s1, j, p, w, e1, e2, e3, e4, e5, e6, e7⟩ := evalStmt_ok h0 hg ha hv hcur h1 h2 (hu st (by simp))
    obtain ⟨s', v, i1, i2, i3, i4, i5, i6⟩ := ih f (by omega) _ w e3 e4 e5 e6
    refine ⟨s', v, ?_, i2, i3, i4, i5, e7 t v i6⟩
    cases st with
    | ret => exact absurd rfl h1
    | goto j => exact absurd rfl (h2 j)
    | node q | call x =>
      simp [evalFrom, h, e1, e2, hk, i1, bind, Except.bind]
  | @last k st h h1 h2 hk =>
    refine ⟨1, fun fuel hf s cur hg ha hv hcur => ?_⟩
    obtain ⟨f, rfl⟩ : ∃ f, fuel = f + 1 := ⟨fuel - 1, by omega⟩
    obtain ⟨s1, j, p, w, e1, e2, e3, e4, e5, e6, e7⟩ := evalStmt_ok h0 hg ha hv hcur h1 h2 (hu st (by simp))
    refine ⟨_, w, ?_, e3, e4, e5, e6, e7 [] w .nil⟩
    have hk' : ¬ k + 1 < l.length := by omega
    cases st with
    | ret => exact absurd rfl h1
    | goto j => exact absurd rfl (h2 j)
    | node q | call x =>
      simp [evalFrom, h, e1, e2, hk', bind, Except.bind, pure, Except.pure]
  | @behind k h =>
    refine ⟨1, fun fuel hf s cur hg ha hv hcur => ?_⟩
    obtain ⟨f, rfl⟩ : ∃ f, fuel = f + 1 := ⟨fuel - 1, by omega⟩
    obtain ⟨s1, j, p, w, e1, e2, e3, e4, e5, e6, e7⟩ := evalStmt_ok (st := .node nilNode) h0 hg ha hv hcur
      (by simp) (by simp) (by simp [Stmt.uses])
    refine ⟨_, w, ?_, e3, e4, e5, e6, e7 [] w .nil⟩
    have hk' : ¬ k + 1 < l.length := by
      have := List.getElem?_eq_none_iff.1 h; omega
    simp [evalFrom, h, e1, e2, hk', bind, Except.bind, pure, Except.pure]

/-- Evaluation leaves a good state. -/
theorem evalFrom_good {l : List Stmt} : ∀ {fuel : Nat} {s s' : State} {k : Nat}, Good s → evalFrom l fuel s k = .ok s' →
    Good s' := by
  intro fuel
  induction fuel with
  | zero => intro s s' k _ h; cases h
  | succ fuel ih =>
    intro s s' k hg h
    unfold evalFrom at h
    generalize l[k]?.getD (.node nilNode) = st at h
    split at h
    · cases h; exact hg
    · exact ih hg h
    · rename_i h1 h2
      match he : evalStmt s st with
      | .error e => rw [he] at h; cases h
      | .ok (s1, v) =>
        simp only [he, bind, Except.bind] at h
        have hg1 : Good s1 ∧ ∀ j, v = some j → j < s1.cells.length := by
          cases st with
          | ret => exact absurd rfl h1
          | goto j => exact absurd rfl (h2 j)
          | node q =>
            cases he
            exact ⟨hg.make _, fun j hj => by cases hj; simp [State.make]⟩
          | call x =>
            match hx : s.vals[x]? with
            | none => simp [evalStmt, State.to_none hx, bind, Except.bind] at he
            | some i =>
              simp only [evalStmt, State.to_some hx, bind, Except.bind, pure, Except.pure, Except.ok.injEq,
                Prod.mk.injEq] at he
              obtain ⟨rfl, rfl⟩ := he
              exact ⟨hg, fun j hj => by cases hj; exact hg.lt hx⟩
        match v with
        | none => cases h; exact hg1.1
        | some j =>
          obtain ⟨n, p, hc, hp, _⟩ := hg1.1.ends.getPtr (hg1.2 j rfl)
          simp only [hp] at h
          have hg2 := hg1.1.replace hg1.1.pos hc
          split at h
          · exact ih hg2 h
          · cases h; exact hg2

theorem Reach.good {s : State} (h : Reach s) : Good s := by
  induction h with
  | init => exact good_init
  | @step s o s' a _ hs ih =>
    by_cases ho : ∀ x ∈ o.uses, x < s.vals.length
    · obtain ⟨s1, b, h1, h2⟩ := step_good ih o ho
      rw [h1] at hs; cases hs; exact h2
    · obtain ⟨x, hx⟩ := Classical.not_forall.1 ho
      obtain ⟨hx, hn⟩ := Classical.not_imp.1 hx
      rw [step_noValue ih o hx hn] at hs; cases hs
  | @eval s l fuel s' _ he ih =>
    unfold evalList at he
    match h1 : evalFrom l fuel s 0 with
    | .error e => rw [h1] at he; cases he
    | .ok s1 =>
      rw [h1] at he; cases he
      have := evalFrom_good ih h1
      exact this.push this.pos

end ELC.Val
