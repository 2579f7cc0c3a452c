import Verif.Gc.Spec
namespace ELC.Gc

/-- What an object adds to `held`. -/
def weight (o : Obj) (b : Nat) : Nat := if o.life = .living then o.edges.count b else 0

theorem held_set {o o' : Obj} {c : Nat} : ∀ {h : Heap} {b : Nat}, h[b]? = some o →
    held (h.set b o') c + weight o c = held h c + weight o' c
  | [], b, h => by simp at h
  | p :: h, 0, hb => by
    simp only [List.getElem?_cons_zero, Option.some.injEq] at hb
    subst hb
    simp only [List.set_cons_zero, held, weight]
    omega
  | p :: h, b + 1, hb => by
    simp only [List.getElem?_cons_succ] at hb
    have := held_set (c := c) (o' := o') hb
    simp only [List.set_cons_succ, held]
    omega

theorem held_pos {o : Obj} {c : Nat} : ∀ {h : Heap} {b : Nat}, h[b]? = some o → o.life = .living → c ∈ o.edges →
    0 < held h c
  | [], b, h, _, _ => by simp at h
  | p :: h, 0, hb, hl, hc => by
    simp only [List.getElem?_cons_zero, Option.some.injEq] at hb
    subst hb
    have := List.count_pos_iff.2 hc
    simp only [held, hl, if_true]
    omega
  | p :: h, b + 1, hb, hl, hc => by
    simp only [List.getElem?_cons_succ] at hb
    have := held_pos hb hl hc
    simp only [held]
    omega

theorem held_zero {c : Nat} : ∀ {h : Heap}, (∀ (i : Nat) (o : Obj), h[i]? = some o → o.life = .living → c ∉ o.edges) → held h c = 0
  | [], _ => rfl
  | p :: h, H => by
    have h1 := H 0 p rfl
    have h2 := held_zero (c := c) (h := h) fun i o hi => H (i + 1) o hi
    simp only [held, h2]
    split
    · rename_i e; simpa using List.count_eq_zero.2 (h1 e)
    · rfl

/-- How often a pointer to `b` is still to be destroyed. -/
def cuts (ts : List Task) (b : Nat) : Nat := ts.count (.cut b)

theorem cuts_tasks (o : Obj) (b c : Nat) (ts : List Task) : cuts (tasks o b ++ ts) c = o.edges.count c + cuts ts c := by
  simp only [cuts, tasks, List.count_append]
  have : ∀ l : List Nat, (l.map Task.cut).count (.cut c) = l.count c := by
    intro l
    induction l with
    | nil => rfl
    | cons a l ih =>
      simp only [List.map_cons, List.count_cons, ih]
      by_cases h : a = c
      · simp [h]
      · simp [h]
  rw [this]
  simp

theorem cuts_pos {ts : List Task} {b : Nat} (h : .cut b ∈ ts) : 0 < cuts ts b := List.count_pos_iff.2 h

theorem get?_set {h : Heap} {b c : Nat} {o o' : Obj} (hb : h[b]? = some o) :
    (h.set b o')[c]? = if c = b then some o' else h[c]? := by
  have hl : b < h.length := by
    apply Classical.byContradiction
    intro hn
    rw [List.getElem?_eq_none (by omega)] at hb; cases hb
  by_cases e : c = b
  · subst e; simp [hl]
  · simp [e, List.getElem?_set_ne (Ne.symm e)]

/-- The state while tasks are done; `R` are the objects that can be reached, `h0` is the heap before. -/
structure Inv (out : Nat → Nat) (R : Nat → Prop) (h0 h : Heap) (ts : List Task) : Prop where
  len : h.length = h0.length
  edges : ∀ (b : Nat) (o : Obj), h[b]? = some o → ∃ o0, h0[b]? = some o0 ∧ o.edges = o0.edges
  born : ∀ b, h.Living b → h0.Living b
  refs : ∀ (b : Nat) (o : Obj), h0.Living b → h[b]? = some o → o.refs = out b + held h b + cuts ts b
  kept : ∀ b, R b → h.Living b
  cut : ∀ b, .cut b ∈ ts → h0.Living b
  dying : ∀ (b : Nat) (o : Obj), h[b]? = some o → o.life = .dying → .done b ∈ ts

/-- What holds before and does not change. -/
structure Base (out : Nat → Nat) (R : Nat → Prop) (h0 : Heap) : Prop where
  inner : ∀ (i : Nat) (o : Obj), h0[i]? = some o → o.life = .living → ∀ b ∈ o.edges, h0.Living b
  why : ∀ b, R b → 0 < out b ∨ ∃ (a : Nat) (o : Obj), R a ∧ h0[a]? = some o ∧ b ∈ o.edges

theorem Living.lt {h : Heap} {b : Nat} (hb : h.Living b) : b < h.length := by
  obtain ⟨o, h1, _⟩ := hb
  apply Classical.byContradiction
  intro hn
  rw [List.getElem?_eq_none (by omega)] at h1; cases h1

theorem Inv.get {out R h0 h ts} (I : Inv out R h0 h ts) {b : Nat} (hb : h0.Living b) : ∃ o, h[b]? = some o := by
  have := Living.lt hb
  have h1 : b < h.length := by rw [I.len]; exact this
  exact ⟨h[b], by simp [h1]⟩

/-- What can be reached is held. -/
theorem Inv.isHeld {out R h0 h ts} (B : Base out R h0) (I : Inv out R h0 h ts) {b : Nat} (hb : R b) :
    0 < out b + held h b := by
  rcases B.why b hb with h1 | ⟨a, o, ha, h1, h2⟩
  · omega
  · obtain ⟨o', h3, h4⟩ := I.kept a ha
    obtain ⟨o0, h5, h6⟩ := I.edges a o' h3
    rw [h1] at h5; cases h5
    have := held_pos h3 h4 (by rw [h6]; exact h2)
    omega

theorem less_pos {n : Nat} (h : 0 < n) : less n = n - 1 := by simp [less]; omega

/-- One pointer is destroyed and its object stays. -/
theorem Inv.cut_keep {out R h0 h ts} {b : Nat} {o : Obj} (I : Inv out R h0 h (.cut b :: ts)) (ho : h[b]? = some o) :
    Inv out R h0 (h.set b { o with refs := less o.refs }) ts := by
  have hb := I.cut b (by simp)
  have hr := I.refs b o hb ho
  have hw : ∀ c, held (h.set b { o with refs := less o.refs }) c = held h c := by
    intro c
    have := held_set (c := c) (o' := { o with refs := less o.refs }) ho
    simp only [weight] at this
    omega
  have hc : ∀ c, cuts (.cut b :: ts) c = cuts ts c + if b = c then 1 else 0 := by
    intro c
    simp only [cuts, List.count_cons]
    congr 1
    by_cases e : b = c <;> simp [e]
  have living : ∀ c, Heap.Living (h.set b { o with refs := less o.refs }) c ↔ h.Living c := by
    intro c
    unfold Heap.Living
    rw [get?_set ho]
    by_cases e : c = b
    · subst e; simp [ho]
    · simp [e]
  refine ⟨by simp [I.len], ?_, fun c => (living c).1 |> fun f x => I.born c (f x), ?_, fun c hc => (living c).2 (I.kept c hc),
    fun c hc => I.cut c (by simp [hc]), ?_⟩
  · intro c p hp
    rw [get?_set ho] at hp
    split at hp
    · cases hp; rename_i e; subst e; exact I.edges c o ho
    · exact I.edges c p hp
  · intro c p h1 h2
    rw [get?_set ho] at h2
    rw [hw]
    split at h2
    · cases h2; rename_i e; subst e
      rw [hc] at hr
      simp only [if_true] at hr
      rw [less_pos (by omega)]
      dsimp only
      omega
    · rename_i e
      have := I.refs c p h1 h2
      rw [hc, if_neg (fun x => e x.symm)] at this
      omega
  · intro c p h1 h2
    rw [get?_set ho] at h1
    have : .done c ∈ .cut b :: ts := by
      split at h1
      · cases h1; rename_i e; subst e; exact I.dying c o ho h2
      · exact I.dying c p h1 h2
    simpa using this

/-- An object begins to be destroyed: its pointers become tasks. -/
theorem Inv.begin {out R h0 h ts} (B : Base out R h0) {b n : Nat} {o : Obj} (I : Inv out R h0 h ts) (ho : h[b]? = some o)
    (hl : o.life = .living) (hR : ¬ R b) (hn : n = o.refs) :
    Inv out R h0 (h.set b { o with refs := n, life := .dying }) (tasks o b ++ ts) := by
  subst hn
  have hw : ∀ c, held (h.set b { o with refs := o.refs, life := .dying }) c + o.edges.count c = held h c := by
    intro c
    have := held_set (c := c) (o' := { o with refs := o.refs, life := .dying }) ho
    simp [weight, hl] at this
    exact this
  refine ⟨by simp [I.len], ?_, ?_, ?_, ?_, ?_, ?_⟩
  · intro c p hp
    rw [get?_set ho] at hp
    split at hp
    · cases hp; rename_i e; subst e; exact I.edges c o ho
    · exact I.edges c p hp
  · rintro c ⟨p, h1, h2⟩
    rw [get?_set ho] at h1
    split at h1
    · cases h1; cases h2
    · exact I.born c ⟨p, h1, h2⟩
  · intro c p h1 h2
    rw [get?_set ho] at h2
    rw [cuts_tasks]
    have := hw c
    split at h2
    · cases h2; rename_i e; subst e
      have := I.refs c o h1 ho
      dsimp only
      omega
    · have := I.refs c p h1 h2
      omega
  · intro c hc
    obtain ⟨p, h1, h2⟩ := I.kept c hc
    refine ⟨p, ?_, h2⟩
    rw [get?_set ho, if_neg]
    · exact h1
    · rintro rfl; exact hR hc
  · intro c hc
    simp only [tasks, List.append_assoc, List.mem_append, List.mem_map, List.mem_singleton] at hc
    rcases hc with ⟨a, h1, h2⟩ | h1 | h1
    · cases h2
      obtain ⟨o0, h3, h4⟩ := I.edges b o ho
      obtain ⟨o1, h5, h6⟩ := I.born b ⟨o, ho, hl⟩
      rw [h3] at h5; cases h5
      exact B.inner b _ h3 h6 c (by rw [← h4]; exact h1)
    · cases h1
    · exact I.cut c h1
  · intro c p h1 h2
    rw [get?_set ho] at h1
    split at h1
    · rename_i e; subst e; simp [tasks]
    · have := I.dying c p h1 h2
      simp [this]

theorem Inv.done {out R h0 h ts} {b : Nat} {o : Obj} (I : Inv out R h0 h (.done b :: ts)) (ho : h[b]? = some o)
    (hl : o.life ≠ .living) : Inv out R h0 (h.set b { o with life := .dead }) ts := by
  have hw : ∀ c, held (h.set b { o with life := .dead }) c = held h c := by
    intro c
    have := held_set (c := c) (o' := { o with life := .dead }) ho
    simp [weight, hl] at this
    exact this
  refine ⟨by simp [I.len], ?_, ?_, ?_, ?_, fun c hc => I.cut c (by simp [hc]), ?_⟩
  · intro c p hp
    rw [get?_set ho] at hp
    split at hp
    · cases hp; rename_i e; subst e; exact I.edges c o ho
    · exact I.edges c p hp
  · rintro c ⟨p, h1, h2⟩
    rw [get?_set ho] at h1
    split at h1
    · cases h1; cases h2
    · exact I.born c ⟨p, h1, h2⟩
  · intro c p h1 h2
    rw [get?_set ho] at h2
    rw [hw]
    split at h2
    · cases h2; rename_i e; subst e
      have := I.refs c o h1 ho
      simpa [cuts] using this
    · have := I.refs c p h1 h2
      simpa [cuts] using this
  · intro c hc
    obtain ⟨p, h1, h2⟩ := I.kept c hc
    refine ⟨p, ?_, h2⟩
    rw [get?_set ho, if_neg]
    · exact h1
    · rintro rfl; rw [ho] at h1; cases h1; exact hl h2
  · intro c p h1 h2
    rw [get?_set ho] at h1
    split at h1
    · cases h1; cases h2
    · rename_i e
      have := I.dying c p h1 h2
      simpa [e] using this

/-- Objects that are gone stay gone, and if pointers to them were left, pointers are left. -/
def Gone (h h' : Heap) : Prop := ∀ (b : Nat) (o : Obj), h[b]? = some o → o.life ≠ .living → ∃ o', h'[b]? = some o' ∧ o'.life ≠ .living ∧
  (0 < o.refs → 0 < o'.refs)

theorem Gone.refl (h : Heap) : Gone h h := fun _ o h1 h2 => ⟨o, h1, h2, id⟩

theorem Gone.trans {a b c : Heap} (h1 : Gone a b) (h2 : Gone b c) : Gone a c := by
  intro x o e1 e2
  obtain ⟨o', e3, e4, e5⟩ := h1 x o e1 e2
  obtain ⟨o'', e6, e7, e8⟩ := h2 x o' e3 e4
  exact ⟨o'', e6, e7, fun h => e8 (e5 h)⟩

theorem Gone.set {h : Heap} {b : Nat} {o o' : Obj} (ho : h[b]? = some o)
    (H : o.life ≠ .living → o'.life ≠ .living ∧ (0 < o.refs → 0 < o'.refs)) : Gone h (h.set b o') := by
  intro c p h1 h2
  rw [get?_set ho]
  split
  · rename_i e; subst e
    rw [ho] at h1; cases h1
    exact ⟨o', rfl, (H h2).1, (H h2).2⟩
  · exact ⟨p, h1, h2, id⟩

/-- Only dying objects come to the end of their destruction. -/
def Calm (h : Heap) (ts : List Task) : Prop := ∀ b, .done b ∈ ts → ∃ o, h[b]? = some o ∧ o.life ≠ .living

theorem work_inv {out R h0} (B : Base out R h0) : ∀ {fuel : Nat} {h h' : Heap} {ts : List Task}, Inv out R h0 h ts →
    Calm h ts → work fuel h ts = .ok h' → Inv out R h0 h' [] ∧ Gone h h' := by
  intro fuel
  induction fuel with
  | zero =>
    intro h h' ts I C e
    cases ts with
    | nil => simp only [work] at e; cases e; exact ⟨I, .refl h⟩
    | cons t ts => simp [work] at e
  | succ fuel ih =>
    intro h h' ts I C e
    match ts with
    | [] => simp only [work] at e; cases e; exact ⟨I, .refl h⟩
    | .cut b :: ts =>
      obtain ⟨o, ho⟩ := I.get (I.cut b (by simp))
      simp only [work, ho] at e
      split at e
      · cases e
      · split at e
        · split at e
          · cases e
          · rename_i h1 h2 h3
            have hl : o.life = .living := by
              cases h : o.life <;> simp_all
            have K := I.cut_keep ho
            have hR : ¬ R b := by
              intro hb
              have h4 := K.isHeld B hb
              have h5 := K.refs b _ (I.cut b (by simp)) (by rw [get?_set ho, if_pos rfl])
              dsimp only at h5
              omega
            have ho' : (h.set b { o with refs := less o.refs })[b]? = some { o with refs := less o.refs } := by
              rw [get?_set ho, if_pos rfl]
            have K' := K.begin B ho' hl hR rfl
            simp only [List.set_set] at K'
            have G : Gone h (h.set b { o with refs := less o.refs, life := .dying }) :=
              Gone.set ho fun h => absurd hl h
            obtain ⟨I', G'⟩ := ih K' (by
              intro c hc
              simp only [tasks, List.append_assoc, List.mem_append, List.mem_map, List.mem_singleton, reduceCtorEq,
                and_false, exists_false, false_or, Task.done.injEq] at hc
              rcases hc with rfl | hc
              · exact ⟨_, by rw [get?_set ho, if_pos rfl], by simp⟩
              · obtain ⟨p, h4, h5⟩ := C c (by simp [hc])
                obtain ⟨p', h6, h7, _⟩ := G c p h4 h5
                exact ⟨p', h6, h7⟩) e
            exact ⟨I', G.trans G'⟩
        · rename_i h1 h2
          have G : Gone h (h.set b { o with refs := less o.refs }) :=
            Gone.set ho fun h => ⟨h, fun _ => by dsimp only; omega⟩
          obtain ⟨I', G'⟩ := ih (I.cut_keep ho) (by
            intro c hc
            obtain ⟨p, h4, h5⟩ := C c (by simp [hc])
            obtain ⟨p', h6, h7, _⟩ := G c p h4 h5
            exact ⟨p', h6, h7⟩) e
          exact ⟨I', G.trans G'⟩
    | .done b :: ts =>
      obtain ⟨o, ho, hl⟩ := C b (by simp)
      simp only [work, ho] at e
      have G : Gone h (h.set b { o with life := .dead }) := Gone.set ho fun _ => ⟨by simp, id⟩
      obtain ⟨I', G'⟩ := ih (I.done ho hl) (by
        intro c hc
        obtain ⟨p, h4, h5⟩ := C c (by simp [hc])
        obtain ⟨p', h6, h7, _⟩ := G c p h4 h5
        exact ⟨p', h6, h7⟩) e
      exact ⟨I', G.trans G'⟩

/-! ### the bounds are enough -/

def sizeOf (o : Obj) : Nat := if o.life = .living then o.edges.length + 1 else 0

theorem size_set {o o' : Obj} : ∀ {h : Heap} {b : Nat}, h[b]? = some o → size (h.set b o') + sizeOf o = size h + sizeOf o'
  | [], b, h => by simp at h
  | p :: h, 0, hb => by
    simp only [List.getElem?_cons_zero, Option.some.injEq] at hb
    subst hb
    simp only [List.set_cons_zero, size, sizeOf]
    omega
  | p :: h, b + 1, hb => by
    simp only [List.getElem?_cons_succ] at hb
    have := size_set (o' := o') hb
    simp only [List.set_cons_succ, size]
    omega

theorem work_bound : ∀ {fuel : Nat} {h : Heap} {ts : List Task}, size h + ts.length ≤ fuel →
    work fuel h ts ≠ .error .bound := by
  intro fuel
  induction fuel with
  | zero =>
    intro h ts hf
    cases ts with
    | nil => simp [work]
    | cons t ts => simp at hf
  | succ fuel ih =>
    intro h ts hf
    match ts with
    | [] => simp [work]
    | .cut b :: ts =>
      simp only [work]
      simp only [List.length_cons] at hf
      cases ho : h[b]? with
      | none => simp
      | some o =>
        simp only
        split
        · simp
        · split
          · split
            · simp
            · rename_i h1 h2 h3
              have hl : o.life = .living := by cases h : o.life <;> simp_all
              apply ih
              have := size_set (o' := { o with refs := less o.refs, life := .dying }) ho
              simp [sizeOf, hl] at this
              simp [tasks]
              omega
          · apply ih
            have := size_set (o' := { o with refs := less o.refs }) ho
            simp only [sizeOf] at this
            omega
    | .done b :: ts =>
      simp only [work]
      simp only [List.length_cons] at hf
      cases ho : h[b]? with
      | none => simp
      | some o =>
        apply ih
        have := size_set (o' := { o with life := .dead }) ho
        simp [sizeOf] at this
        omega

theorem destroy_bound (h : Heap) (a : Nat) : destroy h a ≠ .error .bound := by
  unfold destroy
  cases ho : h[a]? with
  | none => simp
  | some o =>
    simp only
    split
    · simp
    · simp
    · rename_i hl
      apply work_bound
      have := size_set (o' := { o with life := .dying }) ho
      simp [sizeOf, hl] at this
      simp [tasks]
      omega

theorem next_spec (h : Heap) : ∀ (k i : Nat), h.length ≤ i + k →
    i ≤ next h i k ∧ (∀ m, i ≤ m → m < next h i k → ∃ o, h[m]? = some o ∧ o.life = .dead) ∧
    ∀ o, h[next h i k]? = some o → o.life ≠ .dead := by
  intro k
  induction k with
  | zero =>
    intro i hi
    simp only [next]
    refine ⟨by omega, fun m h1 h2 => by omega, fun o ho => ?_⟩
    rw [List.getElem?_eq_none (by omega)] at ho; cases ho
  | succ k ih =>
    intro i hi
    simp only [next]
    cases ho : h[i]? with
    | none =>
      refine ⟨Nat.le_refl i, fun m h1 h2 => ?_, fun o h => ?_⟩
      · simp only at h2; omega
      · simp only [ho] at h; cases h
    | some o =>
      simp only
      split
      · rename_i hd
        obtain ⟨h1, h2, h3⟩ := ih (i + 1) (by omega)
        refine ⟨by omega, fun m h4 h5 => ?_, h3⟩
        by_cases e : m = i
        · subst e; exact ⟨o, ho, hd⟩
        · exact h2 m (by omega) h5
      · rename_i hd
        refine ⟨Nat.le_refl i, fun m h1 h2 => by omega, fun p h => ?_⟩
        rw [ho] at h; cases h; exact hd

end ELC.Gc
