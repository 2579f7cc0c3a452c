import Verif.Gc.Sweep
/-!
Garbage collection.
-/
namespace ELC.Gc

/-! ### C87: what is collected -/

/-- Whenever collection comes to an end, what can be reached is untouched, its counts are those of the pointers that are
left, and everything else is destroyed. -/
theorem collect_exact {out : Nat → Nat} {h h' : Heap} {s : List Nat} {marked : Nat → Bool} (C : Counted out h)
    (hs : ∀ a ∈ s, 0 < out a) (M : Marks h s marked) (e : collect marked h = .ok h') :
    (∀ b, h'.Living b ↔ Reach h s b) ∧
    (∀ (b : Nat) (o : Obj), h'[b]? = some o → (o.life = .living ∨ o.life = .dead) ∧
      ∃ o0, h[b]? = some o0 ∧ o.edges = o0.edges ∧ (o.life = .living → o.refs = out b + held h' b)) := by
  have B := C.base hs
  have I0 := C.inv (R := Reach h s) fun b hb => C.reach hs hb
  obtain ⟨I, _, H⟩ := sweep_inv B M I0 (fun m hm hl => by
    obtain ⟨_, h2, _⟩ := next_spec h h.length 0 (by omega)
    obtain ⟨o, h3, h4⟩ := h2 m (by omega) hm
    obtain ⟨o', h5, h6⟩ := hl
    rw [h3] at h5; cases h5; rw [h4] at h6; cases h6) e
  refine ⟨fun b => ⟨H b, I.kept b⟩, fun b o hb => ⟨?_, ?_⟩⟩
  · cases hl : o.life with
    | living => exact .inl rfl
    | dead => exact .inr rfl
    | dying => have := I.dying b o hb hl; simp at this
  · obtain ⟨o0, h1, h2⟩ := I.edges b o hb
    refine ⟨o0, h1, h2, fun hl => ?_⟩
    have := I.refs b o (I.born b ⟨o, hb, hl⟩) hb
    simpa [cuts] using this

/-- Partial: collection comes to a right end when no pointer points to garbage. -/
theorem collect_partial {out : Nat → Nat} {h : Heap} {s : List Nat} {marked : Nat → Bool} (C : Counted out h)
    (hs : ∀ a ∈ s, 0 < out a) (M : Marks h s marked)
    (hz : ∀ (b : Nat) (o : Obj), Garbage h s b → h[b]? = some o → o.refs = 0) :
    ∃ h', collect marked h = .ok h' ∧ ∀ b, h'.Living b ↔ Reach h s b := by
  have B := C.base hs
  have I0 := C.inv (R := Reach h s) fun b hb => C.reach hs hb
  have n := next_spec h h.length 0 (by omega)
  obtain ⟨h', e⟩ := sweep_ok (fuel := h.length + 1) B M (fun a o ha hl b hb => by
    apply Classical.byContradiction
    intro hn
    have hb' := C.inner a o ha hl b hb
    obtain ⟨p, h1, h2⟩ := hb'
    have h3 := hz b p ⟨⟨p, h1, h2⟩, hn⟩ h1
    have h4 := C.refs b p h1 h2
    have h5 := held_pos ha hl hb
    omega) I0 (by omega) (next_le h _ _ (by omega)) n.2.2
  exact ⟨h', e, (collect_exact C hs M e).1⟩

/-- The full statement is false, and not only for some heaps: whenever there is garbage in a circle that nothing outside
points to, which is what collection is for, it ends in a use of a destroyed object or in a second destruction. -/
theorem collect_circle_refuted {out : Nat → Nat} {h : Heap} {s : List Nat} {marked : Nat → Bool} (C : Counted out h)
    (hs : ∀ a ∈ s, 0 < out a) (M : Marks h s marked) (ho : ∀ b, Garbage h s b → out b = 0) (S : Nat → Prop)
    (hS : ∃ b, S b) (hG : ∀ b, S b → Garbage h s b)
    (hc : ∀ b, S b → ∃ (a : Nat) (o : Obj), S a ∧ h[a]? = some o ∧ b ∈ o.edges) :
    collect marked h = .error .usesDead ∨ collect marked h = .error .destroysTwice := by
  cases e : collect marked h with
  | error x =>
    cases x with
    | usesDead => exact .inl rfl
    | destroysTwice => exact .inr rfl
    | bound => exact absurd e (collect_bound marked h)
  | ok h' =>
    exfalso
    have B := C.base hs
    let T := fun b => Reach h s b ∨ S b
    have B' : Base out T h := by
      refine ⟨C.inner, ?_⟩
      rintro b (hb | hb)
      · exact (B.why b hb).imp id fun ⟨a, o, h1, h2⟩ => ⟨a, o, .inl h1, h2⟩
      · obtain ⟨a, o, h1, h2⟩ := hc b hb
        exact .inr ⟨a, o, .inr h1, h2⟩
    have I0 : Inv out T h h [] := C.inv fun b hb => by
      rcases hb with hb | hb
      · exact C.reach hs hb
      · exact (hG b hb).1
    have P : ∀ m, m < next h 0 h.length → h.Living m → Reach h s m := by
      intro m hm hl
      obtain ⟨_, h2, _⟩ := next_spec h h.length 0 (by omega)
      obtain ⟨o, h3, h4⟩ := h2 m (by omega) hm
      obtain ⟨o', h5, h6⟩ := hl
      rw [h3] at h5; cases h5; rw [h4] at h6; cases h6
    have X := collect_exact C hs M e
    obtain ⟨I, _, H⟩ := sweep_inv B M (I0.weaken fun b hb => .inl hb) P e
    rcases sweep_cycle B B' (fun b hb => .inl hb) M I0 P e with h1 | ⟨b, o, h1, h2, h3, h4⟩
    · obtain ⟨b, hb⟩ := hS
      exact (hG b hb).2 ((X.1 b).1 (h1 b (.inr hb)))
    · rcases h4 with h4 | h4
      · obtain ⟨p, h5, h6⟩ := I.kept b h4
        rw [h1] at h5; cases h5; exact h2 h6
      · have h5 := I.refs b o (hG b h4).1 h1
        have h6 := ho b (hG b h4)
        have h7 : held h' b = 0 := by
          apply held_zero
          intro i p hi hl hb
          have hr := H i ⟨p, hi, hl⟩
          obtain ⟨p0, h8, h9⟩ := I.edges i p hi
          exact (hG b h4).2 (.step hr h8 (by rw [← h9]; exact hb))
        simp [cuts] at h5
        omega

/-- Two objects that point to each other; a third that is reached, and one more that points to it. -/
def circle : Heap := [⟨[1], 1, .living⟩, ⟨[0], 1, .living⟩, ⟨[], 2, .living⟩, ⟨[2], 0, .living⟩]

example : collect (· == 2) circle = .error .destroysTwice := rfl

/-- The hypotheses of `collect_circle_refuted` are met. -/
example : Counted (fun b => if b = 2 then 1 else 0) circle ∧ Marks circle [2] (· == 2) ∧
    (∀ b, b < 2 → Garbage circle [2] b) := by
  have R : ∀ b, Reach circle [2] b → b = 2 := by
    intro b h
    induction h with
    | start h => simpa using h
    | step _ h1 h2 ih => subst ih; cases h1; cases h2
  refine ⟨⟨?_, ?_, ?_, ?_⟩, fun b => ⟨fun h => .start (by simpa using h), fun h => by simpa using R b h⟩, ?_⟩
  · intro i o h
    match i with
    | 0 | 1 | 2 | 3 => cases h; simp
    | n + 4 => simp [circle] at h
  · intro i o h _ b hb
    match i with
    | 0 | 1 | 3 => cases h; simp at hb; subst hb; exact ⟨_, rfl, rfl⟩
    | 2 => cases h; cases hb
    | n + 4 => simp [circle] at h
  · intro b hb
    by_cases e : b = 2
    · subst e; exact ⟨_, rfl, rfl⟩
    · simp [e] at hb
  · intro b o h _
    match b with
    | 0 | 1 | 2 | 3 => cases h; rfl
    | n + 4 => simp [circle] at h
  · intro b hb
    match b with
    | 0 | 1 => exact ⟨⟨_, rfl, rfl⟩, fun h => by have := R _ h; omega⟩
    | n + 2 => omega

/-- The hypotheses of `collect_partial` are met: the circle is reached, the object 3 is garbage. -/
example : collect (· != 3) circle = .ok [⟨[1], 1, .living⟩, ⟨[0], 1, .living⟩, ⟨[], 1, .living⟩, ⟨[2], 0, .dead⟩] := rfl

/-- A chain of garbage is no better: the older object holds the younger, and the list is followed into what is gone. -/
theorem collect_chain_refuted : ∃ (h : Heap) (out : Nat → Nat), Counted out h ∧ Marks h [] (fun _ => false) ∧
    (∀ b, out b = 0) ∧ collect (fun _ => false) h = .error .usesDead := by
  refine ⟨[⟨[1], 0, .living⟩, ⟨[], 1, .living⟩], fun _ => 0, ⟨?_, ?_, ?_, ?_⟩, ?_, fun _ => rfl, rfl⟩
  · intro i o h
    match i with
    | 0 | 1 => cases h; simp
    | n + 2 => simp at h
  · intro i o h _ b hb
    match i with
    | 0 => cases h; simp at hb; subst hb; exact ⟨_, rfl, rfl⟩
    | 1 => cases h; cases hb
    | n + 2 => simp at h
  · intro b hb; omega
  · intro b o h _
    match b with
    | 0 | 1 => cases h; rfl
    | n + 2 => simp at h
  · intro b
    simp only [Bool.false_eq_true, false_iff]
    intro h
    induction h with
    | start h => cases h
    | step _ _ _ ih => exact ih

/-! ### C88: roots -/

/-- Copies and destructions among the steps. -/
def Step.plain : Step → Prop
  | .make _ | .assign .. => True
  | .copy _ | .drop _ => False

/-- Partial: as long as no root pointer is copied or destroyed, marking starts from exactly what the root pointers point
to. -/
theorem roots_partial {ss : List Step} (h : ∀ x ∈ ss, x.plain) :
    starts (rootRun [] ss) = some ((rootRun [] ss).map Root.target) ∧ ∀ r ∈ rootRun [] ss, r.alive = true := by
  have H : ∀ r ∈ rootRun [] ss, r.alive = true ∧ r.known = true := by
    have : ∀ (ss : List Step) (l : List Root), (∀ x ∈ ss, x.plain) → (∀ r ∈ l, r.alive = true ∧ r.known = true) →
        ∀ r ∈ rootRun l ss, r.alive = true ∧ r.known = true := by
      intro ss
      induction ss with
      | nil => intro l _ hl; exact hl
      | cons x ss ih =>
        intro l hx hl
        refine ih _ (fun y hy => hx y (by simp [hy])) ?_
        have := hx x (by simp)
        cases x with
        | copy _ => exact this.elim
        | drop _ => exact this.elim
        | make a =>
          intro r hr
          simp only [rootStep, List.mem_append, List.mem_singleton] at hr
          rcases hr with hr | rfl
          · exact hl r hr
          · exact ⟨rfl, rfl⟩
        | assign k a =>
          intro r hr
          simp only [rootStep] at hr
          cases hk : l[k]? with
          | none => rw [hk] at hr; exact hl r hr
          | some o =>
            simp only [hk] at hr
            have ho := hl o (List.mem_of_getElem? hk)
            rw [if_pos ho.1] at hr
            rcases List.mem_or_eq_of_mem_set hr with hr | rfl
            · exact hl r hr
            · exact ho
    exact this ss [] h (by simp)
  refine ⟨?_, fun r hr => (H r hr).1⟩
  have : ∀ l : List Root, (∀ r ∈ l, r.alive = true ∧ r.known = true) → starts l = some (l.map Root.target) := by
    intro l
    induction l with
    | nil => intro _; rfl
    | cons r l ih =>
      intro hl
      have hr := hl r (by simp)
      simp [starts, hr.1, hr.2, ih fun x hx => hl x (by simp [hx])]
  exact this _ H

example : starts (rootRun [] [.make 4, .make 5, .assign 0 6]) = some [6, 5] := rfl

/-- Once a root pointer that was made is destroyed, every later collection uses it. -/
theorem roots_dropped_refuted (l : List Root) (a : Nat) (ss : List Step) :
    starts (rootRun (rootStep (rootStep l (.make a)) (.drop l.length)) ss) = none := by
  have bad : ∀ l : List Root, (∃ r ∈ l, r.known = true ∧ r.alive = false) → starts l = none := by
    intro l
    induction l with
    | nil => rintro ⟨r, hr, _⟩; cases hr
    | cons x l ih =>
      rintro ⟨r, hr, h1, h2⟩
      rcases List.mem_cons.1 hr with rfl | hr
      · simp [starts, h1, h2]
      · have := ih ⟨r, hr, h1, h2⟩
        simp only [starts, this]
        split
        · split <;> rfl
        · rfl
  have stays : ∀ (ss : List Step) (l : List Root) (k : Nat) (r : Root), l[k]? = some r → r.known = true → r.alive = false →
      ∃ r', (rootRun l ss)[k]? = some r' ∧ r'.known = true ∧ r'.alive = false := by
    intro ss
    induction ss with
    | nil => intro l k r h1 h2 h3; exact ⟨r, h1, h2, h3⟩
    | cons x ss ih =>
      intro l k r h1 h2 h3
      have hk : k < l.length := by
        apply Classical.byContradiction
        intro hn
        rw [List.getElem?_eq_none (by omega)] at h1; cases h1
      suffices H : ∃ r', (rootStep l x)[k]? = some r' ∧ r'.known = true ∧ r'.alive = false by
        obtain ⟨r', e1, e2, e3⟩ := H
        exact ih _ k r' e1 e2 e3
      cases x with
      | make b => exact ⟨r, by simp [rootStep, List.getElem?_append_left hk, h1], h2, h3⟩
      | copy j =>
        simp only [rootStep]
        split
        · split
          · exact ⟨r, by simp [List.getElem?_append_left hk, h1], h2, h3⟩
          · exact ⟨r, h1, h2, h3⟩
        · exact ⟨r, h1, h2, h3⟩
      | drop j =>
        simp only [rootStep]
        split
        · rename_i o ho
          by_cases e : j = k
          · subst e; rw [h1] at ho; cases ho
            exact ⟨{ r with alive := false }, by simp [hk], h2, rfl⟩
          · exact ⟨r, by rw [List.getElem?_set_ne e]; exact h1, h2, h3⟩
        · exact ⟨r, h1, h2, h3⟩
      | assign j b =>
        simp only [rootStep]
        split
        · rename_i o ho
          split
          · rename_i ha
            by_cases e : j = k
            · subst e; rw [h1] at ho; cases ho; rw [h3] at ha; cases ha
            · exact ⟨r, by rw [List.getElem?_set_ne e]; exact h1, h2, h3⟩
          · exact ⟨r, h1, h2, h3⟩
        · exact ⟨r, h1, h2, h3⟩
  apply bad
  obtain ⟨r, h1, h2, h3⟩ := stays ss (rootStep (rootStep l (.make a)) (.drop l.length)) l.length ⟨a, false, true⟩
    (by simp [rootStep]) rfl rfl
  exact ⟨r, List.mem_of_getElem? h1, h2, h3⟩

theorem starts_eq (l : List Root) : starts l =
    if ∀ r ∈ l, r.known = true → r.alive = true then some ((l.filter Root.known).map Root.target) else none := by
  induction l with
  | nil => simp [starts]
  | cons r l ih =>
    cases hk : r.known <;> cases ha : r.alive
    · simp [starts, hk, ih]
    · simp [starts, hk, ih]
    · simp [starts, hk, ha]
    · rw [starts, if_pos hk, if_pos ha, ih]
      by_cases h : ∀ x ∈ l, x.known = true → x.alive = true
      · rw [if_pos h, if_pos (by
          intro x hx
          rcases List.mem_cons.1 hx with rfl | hx
          · exact fun _ => ha
          · exact h x hx)]
        simp [hk]
      · rw [if_neg h, if_neg (fun h' => h fun x hx => h' x (List.mem_cons_of_mem _ hx))]
        rfl

/-- **C88, exactly, after every history**: marking is defined and starts from all that existing root pointers point to if and only
if no root pointer that was made from a pointer is destroyed, and what each existing copy points to one that was made points to
as well. -/
theorem roots_characterised (ss : List Step) :
    (∃ s, starts (rootRun [] ss) = some s ∧ ∀ r ∈ rootRun [] ss, r.alive = true → r.target ∈ s) ↔
      (∀ r ∈ rootRun [] ss, r.known = true → r.alive = true) ∧
      ∀ r ∈ rootRun [] ss, r.alive = true → r.known = false → ∃ x ∈ rootRun [] ss, x.known = true ∧ x.target = r.target := by
  generalize rootRun [] ss = l
  rw [starts_eq]
  constructor
  · rintro ⟨s, h, ht⟩
    by_cases hk : ∀ r ∈ l, r.known = true → r.alive = true
    · rw [if_pos hk, Option.some.injEq] at h
      subst h
      refine ⟨hk, fun r hr ha _ => ?_⟩
      obtain ⟨x, hx, e⟩ := List.mem_map.1 (ht r hr ha)
      exact ⟨x, (List.mem_filter.1 hx).1, (List.mem_filter.1 hx).2, e⟩
    · rw [if_neg hk] at h; simp at h
  · rintro ⟨hk, hc⟩
    refine ⟨_, if_pos hk, fun r hr ha => ?_⟩
    cases e : r.known with
    | true => exact List.mem_map.2 ⟨r, List.mem_filter.2 ⟨hr, e⟩, rfl⟩
    | false =>
      obtain ⟨x, hx, h1, h2⟩ := hc r hr ha e
      exact List.mem_map.2 ⟨x, List.mem_filter.2 ⟨hx, h1⟩, h2⟩

-- a copy that is destroyed does no harm, nor one that points where the original does
example : starts (rootRun [] [.make 4, .copy 0, .copy 0, .drop 1]) = some [4] := rfl

/-- An object that only a copy of a root pointer points to is collected. -/
theorem roots_copied_refuted : ∃ (l : List Root) (h h' : Heap) (s : List Nat), rootRun [] [.make 0, .copy 0, .assign 0 1] = l ∧
    starts l = some s ∧ (⟨0, true, false⟩ : Root) ∈ l ∧ Counted (fun b => (l.map Root.target).count b) h ∧
    Marks h s (· == 1) ∧ collect (· == 1) h = .ok h' ∧ ¬ h'.Living 0 := by
  refine ⟨_, [⟨[], 1, .living⟩, ⟨[], 1, .living⟩], _, _, rfl, rfl, by simp [rootRun, rootStep], ⟨?_, ?_, ?_, ?_⟩, ?_, rfl, ?_⟩
  · intro i o h
    match i with
    | 0 | 1 => cases h; simp
    | n + 2 => simp at h
  · intro i o h _ b hb
    match i with
    | 0 | 1 => cases h; cases hb
    | n + 2 => simp at h
  · intro b hb
    match b with
    | 0 | 1 => exact ⟨_, rfl, rfl⟩
    | n + 2 => simp [rootRun, rootStep] at hb
  · intro b o h _
    match b with
    | 0 | 1 => cases h; rfl
    | n + 2 => simp at h
  · intro b
    constructor
    · intro h; exact .start (by simpa using h)
    · intro h
      cases h with
      | start h => simpa using h
      | @step a c o _ h1 h2 =>
        match a with
        | 0 | 1 => cases h1; cases h2
        | n + 2 => simp at h1
  · rintro ⟨o, h1, h2⟩
    cases h1; cases h2

/-! ### C89: the collector -/

/-- A run ends the program exactly when one is going on already or no type was added; otherwise no garbage of the added
types is left and nothing else is different. -/
theorem run_characterised (c : Collector) :
    (c.run = none ↔ c.running = true ∨ c.types = []) ∧
    ∀ c', c.run = some c' → c'.kept = c.kept ∧ c'.types = c.types ∧ c'.running = false ∧
      ∀ T, c'.garbage T = if T ∈ c.types then 0 else c.garbage T := by
  constructor
  · unfold Collector.run
    cases c.running
    · cases h : c.types <;> simp
    · simp
  · intro c' e
    unfold Collector.run at e
    split at e
    · cases e
    · split at e
      · cases e
      · cases e
        have : ∀ (l : List Nat) (c : Collector), (l.foldl Collector.method c).kept = c.kept ∧
            (l.foldl Collector.method c).types = c.types ∧
            ∀ T, (l.foldl Collector.method c).garbage T = if T ∈ l then 0 else c.garbage T := by
          intro l
          induction l with
          | nil => intro c; simp
          | cons x l ih =>
            intro c
            obtain ⟨h1, h2, h3⟩ := ih (c.method x)
            refine ⟨h1, h2, fun T => ?_⟩
            rw [List.foldl_cons, h3]
            by_cases e1 : T ∈ l
            · simp [e1]
            · by_cases e2 : T = x <;> simp [e1, e2, Collector.method]
        obtain ⟨h1, h2, h3⟩ := this c.types { c with running := true }
        exact ⟨h1, h2, rfl, h3⟩

theorem success_eq (c : Collector) : c.success = true ↔ c.types = [] ∨ ∃ T ∈ c.types, c.number T < c.before T := by
  have : ∀ (l : List Nat) (b : Bool), l.foldl (fun s T => if !s then c.fewer T else s) b = true ↔
      b = true ∨ ∃ T ∈ l, c.number T < c.before T := by
    intro l
    induction l with
    | nil => intro b; simp
    | cons x l ih =>
      intro b
      rw [List.foldl_cons, ih]
      cases b <;> simp [Collector.fewer]
  unfold Collector.success
  rw [this]
  simp

/-- Partial: when no type was added twice, `success` after a run tells whether there was garbage of an added type. -/
theorem success_partial {c c' : Collector} (e : c.run = some c') (hd : c.types.Nodup) :
    c'.success = true ↔ ∃ T ∈ c.types, 0 < c.garbage T := by
  have R := (run_characterised c).2 c' e
  rw [success_eq, R.2.1]
  have hne : c.types ≠ [] := by
    intro h
    have := (run_characterised c).1.2 (.inr h)
    rw [e] at this; cases this
  have before : ∀ T ∈ c.types, c'.before T = c.number T := by
    unfold Collector.run at e
    split at e
    · cases e
    · split at e
      · cases e
      · cases e
        have : ∀ (l : List Nat) (c : Collector), l.Nodup → ∀ T, (l.foldl Collector.method c).before T =
            if T ∈ l then c.number T else c.before T := by
          intro l
          induction l with
          | nil => intro c _ T; simp
          | cons x l ih =>
            intro c hd T
            rw [List.nodup_cons] at hd
            rw [List.foldl_cons, ih _ hd.2]
            by_cases e1 : T = x
            · subst e1; simp [hd.1, Collector.method]
            · by_cases e2 : T ∈ l <;> simp [e1, e2, Collector.method, Collector.number]
        intro T hT
        have := this c.types { c with running := true } hd T
        rw [if_pos hT] at this
        exact this
  constructor
  · rintro (h | ⟨T, h1, h2⟩)
    · exact absurd h hne
    · refine ⟨T, h1, ?_⟩
      rw [before T h1] at h2
      simp only [Collector.number, R.1, R.2.2.2 T, if_pos h1] at h2
      omega
  · rintro ⟨T, h1, h2⟩
    refine .inr ⟨T, h1, ?_⟩
    rw [before T h1]
    simp only [Collector.number, R.1, R.2.2.2 T, if_pos h1]
    omega

example : ∃ c c' : Collector, c.run = some c' ∧ c.types.Nodup ∧ c'.success = true ∧ c.number 1 = 5 ∧ c'.number 1 = 3 :=
  ⟨(Collector.add (Collector.add ⟨fun _ => 3, fun T => if T = 1 then 2 else 0, fun _ => 0, [], false⟩ 1) 2), _, rfl, by decide,
    rfl, rfl, rfl⟩

/-- The full statement is false: a type added twice is counted again after its garbage is gone. -/
theorem success_refuted : ∃ c c' : Collector, Collector.run ((c.add 1).add 1) = some c' ∧ c.number 1 = 5 ∧ c'.number 1 = 3 ∧
    c'.success = false :=
  ⟨⟨fun _ => 3, fun _ => 2, fun _ => 0, [], false⟩, _, rfl, rfl, rfl, rfl⟩

end ELC.Gc
