import Verif.Gc.Lemmas
namespace ELC.Gc

theorem get?_lt {h : Heap} {b : Nat} {o : Obj} (hb : h[b]? = some o) : b < h.length := by
  apply Classical.byContradiction
  intro hn
  rw [List.getElem?_eq_none (by omega)] at hb; cases hb

theorem Inv.weaken {out R R' h0 h ts} (I : Inv out R' h0 h ts) (H : ∀ b, R b → R' b) : Inv out R h0 h ts :=
  ⟨I.len, I.edges, I.born, I.refs, fun b hb => I.kept b (H b hb), I.cut, I.dying⟩

theorem Inv.living {out R h0 h} (I : Inv out R h0 h []) {b : Nat} {o : Obj} (hb : h[b]? = some o) (hd : o.life ≠ .dead) :
    o.life = .living := by
  cases hl : o.life with
  | living => rfl
  | dead => exact absurd hl hd
  | dying => have := I.dying b o hb hl; simp at this

theorem destroy_inv {out R h0 h h'} (B : Base out R h0) (I : Inv out R h0 h []) {a : Nat} {o : Obj} (ho : h[a]? = some o)
    (hl : o.life = .living) (hR : ¬ R a) (e : destroy h a = .ok h') :
    Inv out R h0 h' [] ∧ Gone h h' ∧ ∃ o', h'[a]? = some o' ∧ o'.life ≠ .living ∧ (0 < o.refs → 0 < o'.refs) := by
  simp only [destroy, ho, hl] at e
  have ho' : (h.set a { o with life := .dying })[a]? = some { o with life := .dying } := by
    rw [get?_set ho, if_pos rfl]
  obtain ⟨I', G⟩ := work_inv B (by simpa using I.begin B ho hl hR rfl) (by
    intro b hb
    simp only [tasks, List.mem_append, List.mem_map, List.mem_singleton, reduceCtorEq, and_false, exists_false, false_or,
      Task.done.injEq] at hb
    subst hb
    exact ⟨_, ho', by simp⟩) e
  refine ⟨I', Gone.trans (Gone.set ho fun h => absurd hl h) G, ?_⟩
  obtain ⟨o', h1, h2, h3⟩ := G a _ ho' (by simp)
  exact ⟨o', h1, h2, h3⟩

theorem Gone.notLiving {h h' : Heap} (G : Gone h h') {m : Nat} {o : Obj} (hm : h[m]? = some o) (hl : o.life ≠ .living) :
    ¬ h'.Living m := by
  rintro ⟨p, h1, h2⟩
  obtain ⟨o', h3, h4, _⟩ := G m o hm hl
  rw [h1] at h3; cases h3; exact h4 h2

theorem Gone.born {h h' : Heap} (G : Gone h h') {m : Nat} (hm : m < h.length) (hl : ¬ h.Living m) : ¬ h'.Living m := by
  refine G.notLiving (o := h[m]) (by simp [hm]) ?_
  intro e
  exact hl ⟨h[m], by simp [hm], e⟩

/-- Sweeping keeps what can be reached and destroys the rest. -/
theorem sweep_inv {out R h0} (B : Base out R h0) {marked : Nat → Bool} (M : ∀ b, marked b = true ↔ R b) :
    ∀ {fuel : Nat} {h h' : Heap} {i : Nat}, Inv out R h0 h [] → (∀ m, m < i → h.Living m → R m) →
    sweep marked fuel h i = .ok h' → Inv out R h0 h' [] ∧ Gone h h' ∧ ∀ m, h'.Living m → R m := by
  intro fuel
  induction fuel with
  | zero => intro h h' i _ _ e; simp [sweep] at e
  | succ fuel ih =>
    intro h h' i I P e
    simp only [sweep] at e
    cases ho : h[i]? with
    | none =>
      simp only [ho] at e
      cases e
      refine ⟨I, .refl h, fun m hm => P m ?_ hm⟩
      apply Classical.byContradiction
      intro hn
      have h1 := Living.lt hm
      have : i < h.length := by omega
      rw [List.getElem?_eq_getElem this] at ho; cases ho
    | some o =>
      simp only [ho] at e
      split at e
      · cases e
      · rename_i hd
        have hl := I.living ho hd
        obtain ⟨n1, n2, n3⟩ := next_spec h h.length (i + 1) (by omega)
        split at e
        · rename_i hm
          refine ih I (fun m h1 h2 => ?_) e
          by_cases e1 : m < i
          · exact P m e1 h2
          · by_cases e2 : m = i
            · subst e2; exact (M m).1 hm
            · obtain ⟨p, h3, h4⟩ := n2 m (by omega) h1
              obtain ⟨p', h5, h6⟩ := h2
              rw [h3] at h5; cases h5; rw [h4] at h6; cases h6
        · rename_i hm
          have hR : ¬ R i := fun h => hm ((M i).2 h)
          cases ed : destroy h i with
          | error x => rw [ed] at e; cases e
          | ok h1 =>
            rw [ed] at e
            obtain ⟨I1, G1, o1, g1, g2, _⟩ := destroy_inv B I ho hl hR ed
            obtain ⟨I2, G2, H⟩ := ih I1 (fun m e1 e2 => by
              by_cases e3 : m < i
              · refine P m e3 ?_
                apply Classical.byContradiction
                intro hn
                refine G1.born ?_ hn e2
                have := get?_lt ho; omega
              · by_cases e4 : m = i
                · subst e4
                  obtain ⟨p, h3, h4⟩ := e2
                  rw [g1] at h3; cases h3; exact absurd h4 g2
                · obtain ⟨p, h3, h4⟩ := n2 m (by omega) e1
                  exact absurd e2 (G1.notLiving h3 (by rw [h4]; simp))) e
            exact ⟨I2, G1.trans G2, H⟩

/-- A set of objects each of which is pointed to from the set: it stays, or one of it is destroyed while pointed to. -/
theorem sweep_cycle {out R S h0} (B : Base out R h0) (B' : Base out S h0) (hRS : ∀ b, R b → S b) {marked : Nat → Bool}
    (M : ∀ b, marked b = true ↔ R b) : ∀ {fuel : Nat} {h h' : Heap} {i : Nat}, Inv out S h0 h [] →
    (∀ m, m < i → h.Living m → R m) → sweep marked fuel h i = .ok h' →
    (∀ b, S b → h'.Living b) ∨ ∃ (b : Nat) (o : Obj), h'[b]? = some o ∧ o.life ≠ .living ∧ 0 < o.refs ∧ S b := by
  intro fuel
  induction fuel with
  | zero => intro h h' i _ _ e; simp [sweep] at e
  | succ fuel ih =>
    intro h h' i I P e
    have e' := e
    simp only [sweep] at e
    cases ho : h[i]? with
    | none => simp only [ho] at e; cases e; exact .inl I.kept
    | some o =>
      simp only [ho] at e
      split at e
      · cases e
      · rename_i hd
        have hl := I.living ho hd
        obtain ⟨n1, n2, n3⟩ := next_spec h h.length (i + 1) (by omega)
        split at e
        · rename_i hm
          refine ih I (fun m h1 h2 => ?_) e
          by_cases e1 : m < i
          · exact P m e1 h2
          · by_cases e2 : m = i
            · subst e2; exact (M m).1 hm
            · obtain ⟨p, h3, h4⟩ := n2 m (by omega) h1
              obtain ⟨p', h5, h6⟩ := h2
              rw [h3] at h5; cases h5; rw [h4] at h6; cases h6
        · rename_i hm
          have hR : ¬ R i := fun h => hm ((M i).2 h)
          cases ed : destroy h i with
          | error x => rw [ed] at e; cases e
          | ok h1 =>
            rw [ed] at e
            have after : ∀ {h1 : Heap} {o1 : Obj}, Gone h h1 → h1[i]? = some o1 → o1.life ≠ .living →
                ∀ m, m < next h (i + 1) h.length → h1.Living m → R m := by
              intro h1 o1 G1 g1 g2 m e1 e2
              by_cases e3 : m < i
              · refine P m e3 ?_
                apply Classical.byContradiction
                intro hn
                refine G1.born ?_ hn e2
                have := get?_lt ho; omega
              · by_cases e4 : m = i
                · subst e4
                  obtain ⟨p, h3, h4⟩ := e2
                  rw [g1] at h3; cases h3; exact absurd h4 g2
                · obtain ⟨p, h3, h4⟩ := n2 m (by omega) e1
                  exact absurd e2 (G1.notLiving h3 (by rw [h4]; simp))
            by_cases hS : S i
            · right
              have hp : 0 < o.refs := by
                have h2 := I.isHeld B' hS
                have h3 := I.refs i o (I.born i ⟨o, ho, hl⟩) ho
                omega
              obtain ⟨I1, G1, o1, g1, g2, g3⟩ := destroy_inv B (I.weaken hRS) ho hl hR ed
              obtain ⟨_, G2, _⟩ := sweep_inv B M I1 (after G1 g1 g2) e
              obtain ⟨o2, k1, k2, k3⟩ := G2 i o1 g1 g2
              exact ⟨i, o2, k1, k2, k3 (g3 hp), hS⟩
            · obtain ⟨I1, G1, o1, g1, g2, _⟩ := destroy_inv B' I ho hl hS ed
              exact ih I1 (after G1 g1 g2) e

theorem work_length : ∀ {fuel : Nat} {h h' : Heap} {ts : List Task}, work fuel h ts = .ok h' → h'.length = h.length := by
  intro fuel
  induction fuel with
  | zero =>
    intro h h' ts e
    cases ts with
    | nil => simp only [work] at e; cases e; rfl
    | cons t ts => simp [work] at e
  | succ fuel ih =>
    intro h h' ts e
    match ts with
    | [] => simp only [work] at e; cases e; rfl
    | .cut b :: ts =>
      simp only [work] at e
      cases ho : h[b]? with
      | none => simp [ho] at e
      | some o =>
        simp only [ho] at e
        split at e
        · cases e
        · split at e
          · split at e
            · cases e
            · simpa using ih e
          · simpa using ih e
    | .done b :: ts =>
      simp only [work] at e
      cases ho : h[b]? with
      | none => simp [ho] at e
      | some o => simp only [ho] at e; simpa using ih e

theorem destroy_length {h h' : Heap} {a : Nat} (e : destroy h a = .ok h') : h'.length = h.length := by
  unfold destroy at e
  cases ho : h[a]? with
  | none => simp [ho] at e
  | some o =>
    simp only [ho] at e
    split at e
    · cases e
    · cases e
    · simpa using work_length e

theorem next_le (h : Heap) : ∀ (k i : Nat), i ≤ h.length → next h i k ≤ h.length := by
  intro k
  induction k with
  | zero => intro i hi; exact hi
  | succ k ih =>
    intro i hi
    simp only [next]
    cases ho : h[i]? with
    | none => exact hi
    | some o =>
      simp only
      split
      · exact ih _ (get?_lt ho)
      · exact hi

theorem sweep_bound {marked : Nat → Bool} : ∀ {fuel : Nat} {h : Heap} {i : Nat}, h.length < fuel + i → i ≤ h.length →
    sweep marked fuel h i ≠ .error .bound := by
  intro fuel
  induction fuel with
  | zero => intro h i h1 h2; omega
  | succ fuel ih =>
    intro h i h1 h2
    simp only [sweep]
    cases ho : h[i]? with
    | none => simp
    | some o =>
      simp only
      have hi := get?_lt ho
      have n1 := (next_spec h h.length (i + 1) (by omega)).1
      have n2 := next_le h h.length (i + 1) hi
      split
      · simp
      · split
        · exact ih (by omega) n2
        · cases ed : destroy h i with
          | error x =>
            intro e
            simp only [Except.error.injEq] at e
            subst e
            exact destroy_bound h i ed
          | ok h1 =>
            have := destroy_length ed
            exact ih (by omega) (by omega)

theorem collect_bound (marked : Nat → Bool) (h : Heap) : collect marked h ≠ .error .bound :=
  sweep_bound (by omega) (next_le h _ _ (by omega))

/-! ### when nothing points to garbage -/

theorem work_ok {out R h0} (B : Base out R h0) : ∀ {fuel : Nat} {h : Heap} {ts : List Task}, Inv out R h0 h ts → Calm h ts →
    size h + ts.length ≤ fuel → (∀ b, .cut b ∈ ts → R b) →
    ∃ h', work fuel h ts = .ok h' ∧ ∀ (c : Nat) (o' : Obj), h'[c]? = some o' → ∃ o, h[c]? = some o ∧
      (o'.life = o.life ∨ .done c ∈ ts) := by
  intro fuel
  induction fuel with
  | zero =>
    intro h ts I C hf hR
    cases ts with
    | nil => exact ⟨h, by simp [work], fun c o ho => ⟨o, ho, .inl rfl⟩⟩
    | cons t ts => simp at hf
  | succ fuel ih =>
    intro h ts I C hf hR
    match ts with
    | [] => exact ⟨h, by simp [work], fun c o ho => ⟨o, ho, .inl rfl⟩⟩
    | .cut b :: ts =>
      have hb := hR b (by simp)
      obtain ⟨o, ho, hl⟩ := I.kept b hb
      have K := I.cut_keep ho
      have hn : less o.refs ≠ 0 := by
        have h4 := K.isHeld B hb
        have h5 := K.refs b _ (I.cut b (by simp)) (by rw [get?_set ho, if_pos rfl])
        dsimp only at h5
        omega
      obtain ⟨h', h1, h2⟩ := ih K (by
        intro c hc
        obtain ⟨p, h4, h5⟩ := C c (by simp [hc])
        refine ⟨p, ?_, h5⟩
        rw [get?_set ho, if_neg]
        · exact h4
        · rintro rfl; rw [ho] at h4; cases h4; exact h5 hl) (by
        have := size_set (o' := { o with refs := less o.refs }) ho
        simp only [sizeOf] at this
        simp only [List.length_cons] at hf
        omega) (fun c hc => hR c (by simp [hc]))
      refine ⟨h', by simp only [work, ho]; rw [if_neg (by rw [hl]; simp), if_neg hn]; exact h1, fun c o' hc => ?_⟩
      obtain ⟨p, h3, h4⟩ := h2 c o' hc
      rw [get?_set ho] at h3
      split at h3
      · rename_i e; subst e; cases h3
        exact ⟨o, ho, h4.imp id fun x => by simp [x]⟩
      · exact ⟨p, h3, h4.imp id fun x => by simp [x]⟩
    | .done b :: ts =>
      obtain ⟨o, ho, hl⟩ := C b (by simp)
      obtain ⟨h', h1, h2⟩ := ih (I.done ho hl) (by
        intro c hc
        obtain ⟨p, h4, h5⟩ := C c (by simp [hc])
        obtain ⟨p', h6, h7, _⟩ := Gone.set (o' := { o with life := .dead }) ho (fun _ => ⟨by simp, id⟩) c p h4 h5
        exact ⟨p', h6, h7⟩) (by
        have := size_set (o' := { o with life := .dead }) ho
        simp [sizeOf] at this
        simp only [List.length_cons] at hf
        omega) (fun c hc => hR c (by simp [hc]))
      refine ⟨h', by simp [work, ho, h1], fun c o' hc => ?_⟩
      obtain ⟨p, h3, h4⟩ := h2 c o' hc
      rw [get?_set ho] at h3
      split at h3
      · rename_i e; subst e
        exact ⟨o, ho, .inr (by simp)⟩
      · exact ⟨p, h3, h4.imp id fun x => by simp [x]⟩

theorem sweep_ok {out R h0} (B : Base out R h0) {marked : Nat → Bool} (M : ∀ b, marked b = true ↔ R b)
    (Z : ∀ (a : Nat) (o : Obj), h0[a]? = some o → o.life = .living → ∀ b ∈ o.edges, R b) :
    ∀ {fuel : Nat} {h : Heap} {i : Nat}, Inv out R h0 h [] → h.length < fuel + i → i ≤ h.length →
    (∀ o, h[i]? = some o → o.life ≠ .dead) → ∃ h', sweep marked fuel h i = .ok h' := by
  intro fuel
  induction fuel with
  | zero => intro h i _ h1 h2; omega
  | succ fuel ih =>
    intro h i I h1 h2 hd
    simp only [sweep]
    cases ho : h[i]? with
    | none => exact ⟨h, rfl⟩
    | some o =>
      simp only
      have hi := get?_lt ho
      have n1 := next_spec h h.length (i + 1) (by omega)
      have n2 := next_le h h.length (i + 1) hi
      have hd' := hd o ho
      have hl := I.living ho hd'
      rw [if_neg hd']
      split
      · exact ih I (by omega) n2 n1.2.2
      · rename_i hm
        have hR : ¬ R i := fun h => hm ((M i).2 h)
        have ho' : (h.set i { o with life := .dying })[i]? = some { o with life := .dying } := by
          rw [get?_set ho, if_pos rfl]
        obtain ⟨h', e1, e2⟩ := work_ok (fuel := size h + 1) B (by simpa using I.begin B ho hl hR rfl) (by
          intro b hb
          simp only [tasks, List.mem_append, List.mem_map, List.mem_singleton, reduceCtorEq, and_false, exists_false,
            false_or, Task.done.injEq] at hb
          subst hb
          exact ⟨_, ho', by simp⟩) (by
          have := size_set (o' := { o with life := .dying }) ho
          simp [sizeOf, hl] at this
          simp [tasks]
          omega) (by
          intro b hb
          simp only [tasks, List.mem_append, List.mem_map, List.mem_singleton, reduceCtorEq, or_false, Task.cut.injEq,
            exists_eq_right] at hb
          obtain ⟨o0, h3, h4⟩ := I.edges i o ho
          obtain ⟨o1, h5, h6⟩ := I.born i ⟨o, ho, hl⟩
          rw [h3] at h5; cases h5
          exact Z i _ h3 h6 b (by rw [← h4]; exact hb))
        have ed : destroy h i = .ok h' := by simp only [destroy, ho, hl]; exact e1
        rw [ed]
        simp only
        have hlen := destroy_length ed
        refine ih (destroy_inv B I ho hl hR ed).1 (by omega) (by omega) ?_
        intro p hp hdead
        obtain ⟨q, h3, h4⟩ := e2 _ p hp
        have hne : next h (i + 1) h.length ≠ i := by omega
        rw [get?_set ho, if_neg hne] at h3
        rcases h4 with h4 | h4
        · exact n1.2.2 q h3 (by rw [← h4]; exact hdead)
        · simp [tasks, hne] at h4

theorem Counted.base {out h s} (C : Counted out h) (hs : ∀ a ∈ s, 0 < out a) : Base out (Reach h s) h := by
  refine ⟨C.inner, ?_⟩
  intro b hb
  cases hb with
  | start h1 => exact .inl (hs b h1)
  | step h1 h2 h3 => exact .inr ⟨_, _, h1, h2, h3⟩

theorem Counted.reach {out h s} (C : Counted out h) (hs : ∀ a ∈ s, 0 < out a) {b : Nat} (hb : Reach h s b) :
    h.Living b := by
  induction hb with
  | start h1 => exact C.outer _ (hs _ h1)
  | step h1 h2 h3 ih =>
    obtain ⟨o, h4, h5⟩ := ih
    rw [h2] at h4; cases h4
    exact C.inner _ _ h2 h5 _ h3

theorem Counted.inv {out h} (C : Counted out h) {R : Nat → Prop} (hR : ∀ b, R b → h.Living b) : Inv out R h h [] := by
  refine ⟨rfl, fun b o hb => ⟨o, hb, rfl⟩, fun _ => id, ?_, hR, by simp, fun b o h1 h2 => absurd h2 (C.calm b o h1)⟩
  rintro b o ⟨o', h1, h2⟩ h3
  rw [h1] at h3; cases h3
  simpa [cuts] using C.refs b _ h1 h2

end ELC.Gc
