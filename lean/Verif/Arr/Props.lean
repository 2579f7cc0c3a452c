import Verif.Arr.Part
/-! Properties of arrays. -/
namespace ELC.Arr

variable {A : Type}

/-- What a program sees when it looks at its arrays is what the lists say: the sizes, which arrays are empty, and every element
that has been given a value (for types with default values: every element). -/
def Agrees (k : Kind) (s : State A) (a : Spec.Arrays A) : Prop :=
  ∀ x, size s x = .ok (a x).length ∧ (empty s x = true ↔ a x = []) ∧
    ∀ i c, (a x)[i]? = some c → (k ≠ .plain ∨ c ≠ .raw) → get s x i = .ok c

theorem Shows.agrees {k : Kind} {s : State A} {l : Nat → List (Cell A)} {a : Spec.Arrays A} (w : Shows k s l a) : Agrees k s a := by
  intro x
  have o := w.held.own x
  have r := w.ref x
  refine ⟨?_, ?_, ?_⟩
  · rw [r.length]; exact owns_sizeOf o
  · have hl : a x = [] ↔ l x = [] := by rw [← List.length_eq_zero_iff, r.length, List.length_eq_zero_iff]
    rw [hl]
    unfold empty
    cases h : s.arr x with
    | none => rw [h] at o; have o' : l x = [] := o; simp [o']
    | some b => rw [h] at o; simp [o.2]
  · intro i c hc hd
    obtain ⟨c', h1, h2⟩ := r.get hc
    have : c = c' := by
      rcases h2 with h2 | h2
      · exact h2
      · rcases hd with hd | hd
        · exact absurd h2.1 hd
        · exact absurd h2.2 hd
    subst this
    obtain ⟨b, hb, eb⟩ := owns_some o (lt_of_get h1)
    unfold get
    rw [hb]; exact read_ok eb h1

/-- C73.  Whatever a program does with its arrays (making them by size, value, list or part of another array, copying, moving,
swapping, clearing, resizing at either end, inserting, pushing, appending, writing elements), as long as positions lie in the
arrays, sizes suffice and no source lies in the array being changed: nothing faults, whichever blocks the allocator moves, and
every array holds what the same operations make of lists. -/
theorem array_history {k : Kind} {d : A} (ops : List (Op A)) {a : Spec.Arrays A} (h : Spec.run k d (fun _ => []) ops = some a) :
    ∃ s, run k d start ops = .ok s ∧ Agrees k s a := by
  obtain ⟨s, l, e, w⟩ := run_ok ops (shows_start k) h
  exact ⟨s, e, w.agrees⟩

/-- `for_each` meets every element once, the last first. -/
theorem array_for_each {k : Kind} (hk : k ≠ .plain) {d : A} (ops : List (Op A)) {a : Spec.Arrays A}
    (h : Spec.run k d (fun _ => []) ops = some a) {s : State A} (hs : run k d start ops = .ok s) (x : Nat) :
    forEach s x = .ok (a x).reverse := by
  obtain ⟨s', l, e, w⟩ := run_ok ops (shows_start k) h
  rw [hs] at e; cases e
  have r := (w.ref x).eq hk
  have o := w.held.own x
  have key : ∀ (n : Nat), n ≤ (l x).length →
      ((List.range n).reverse).mapM (fun i => s.heap.read (s.arr x) i) = .ok ((l x).take n).reverse := by
    intro n
    induction n with
    | zero => intro _; rfl
    | succ n ih =>
      intro hn
      obtain ⟨b, hb, eb⟩ := owns_some o (i := n) (by omega)
      have hg : (l x)[n]? = some (l x)[n] := List.getElem?_eq_getElem (by omega)
      rw [List.range_succ, List.reverse_append, List.reverse_cons, List.reverse_nil, List.nil_append, List.singleton_append,
        List.mapM_cons, ih (by omega), hb, read_ok eb hg, List.take_add_one, hg, List.reverse_append]
      rfl
  unfold forEach
  rw [owns_sizeOf o, ok_bind, key _ (Nat.le_refl _), List.take_length, r]

/-- C74.  At every point of every history the blocks in memory are exactly those of the arrays that are not empty, no two arrays
share one, and each is as long as its array: nothing is lost and nothing given back early.  (That no element is destroyed twice,
overwritten while alive, or lost with its block is in `array_history`: each of these is a fault.) -/
theorem array_blocks {k : Kind} {d : A} (ops : List (Op A)) {a : Spec.Arrays A} (h : Spec.run k d (fun _ => []) ops = some a) :
    ∃ s, run k d start ops = .ok s ∧
      (∀ x b, s.arr x = some b → ∃ cs, s.heap.blocks b = some cs ∧ cs.length = (a x).length) ∧
      (∀ x y b, s.arr x = some b → s.arr y = some b → x = y) ∧
      (∀ b, s.heap.blocks b ≠ none → ∃ x, s.arr x = some b ∧ a x ≠ []) := by
  obtain ⟨s, l, e, w⟩ := run_ok ops (shows_start k) h
  refine ⟨s, e, ?_, w.held.sep, ?_⟩
  · intro x b hb
    have o := w.held.own x
    rw [hb] at o
    exact ⟨l x, o.1, ((w.ref x).length).symm⟩
  · intro b hb
    obtain ⟨c, hc⟩ := Option.ne_none_iff_exists'.mp hb
    obtain ⟨x, hx⟩ := w.held.cover b c hc
    refine ⟨x, hx, ?_⟩
    have o := w.held.own x
    rw [hx] at o
    intro h0
    have := (w.ref x).length
    rw [h0] at this
    exact o.2 (List.length_eq_zero_iff.mp (by simpa using this.symm))

/-- C74.  When all arrays are empty again, all memory has been given back. -/
theorem array_no_leak {k : Kind} {d : A} (ops : List (Op A)) {a : Spec.Arrays A} (h : Spec.run k d (fun _ => []) ops = some a)
    (he : ∀ x, a x = []) : ∃ s, run k d start ops = .ok s ∧ ∀ b, s.heap.blocks b = none := by
  obtain ⟨s, e, _, _, c⟩ := array_blocks ops h
  refine ⟨s, e, fun b => ?_⟩
  by_contra hb
  obtain ⟨x, _, hx⟩ := c b hb
  exact hx (he x)

/-- C75.  What happens when the source of `push_back`, `+=` or `insert` lies in the array being changed. -/
theorem array_self_source_characterised {k : Kind} {d : A} (ops : List (Op A)) {a : Spec.Arrays A}
    (h : Spec.run k d (fun _ => []) ops = some a) (x i n pos : Nat) (mv : Bool) (hi : i < (a x).length) (hp : pos ≤ (a x).length) (hn : n ≠ 0) :
    (k = .object ∨ mv = true →
      run k d start (ops ++ [.pushFrom x x i mv]) = .error .useAfterFree ∧
      run k d start (ops ++ [.pushMove x x i mv]) = .error .useAfterFree ∧
      run k d start (ops ++ [.appendFrom x x mv]) = .error .useAfterFree ∧
      run k d start (ops ++ [.insertFrom x pos n x i mv]) = .error .useAfterFree ∧
      run k d start (ops ++ [.insertFillFrom x pos n x i mv]) = .error .useAfterFree) ∧
    (k ≠ .object → mv = false →
      (∃ s, run k d start (ops ++ [.pushFrom x x i mv]) = .ok s ∧ Agrees k s (Spec.put a x (a x ++ ((a x).drop i).take 1))) ∧
      (∃ s, run k d start (ops ++ [.appendFrom x x mv]) = .ok s ∧ Agrees k s (Spec.put a x (a x ++ a x)))) := by
  obtain ⟨s, l, e, w⟩ := run_ok ops (shows_start k) h
  have len := (w.ref x).length
  have o := w.held.own x
  obtain ⟨b, hb, eb⟩ := owns_some o (i := i) (by omega)
  constructor
  · intro hk
    have hm : k.managed = true ∨ mv = true := by
      rcases hk with hk | hk
      · left; rw [hk]; rfl
      · exact Or.inr hk
    rw [hb] at o
    have hl0 : (l x).length ≠ 0 := by omega
    rw [run_append ops _ e, run_append ops _ e, run_append ops _ e, run_append ops _ e, run_append ops _ e]
    refine ⟨?_, ?_, ?_, ?_, ?_⟩
    · simp only [exec, update, hb, applyEnd_self w.held.wf o (w.alive x) hm (n := 1) (by omega), err_bind]
    · simp only [exec, update, hb, applyEndMove_self w.held.wf o (w.alive x) hm, err_bind]
    · simp only [exec, update, hb, owns_sizeOf o, ok_bind, applyEnd_self w.held.wf o (w.alive x) hm hl0, err_bind]
    · simp only [exec, update, hb, insertData_self w.held.wf o (w.alive x) hm (by omega : pos ≤ _) hn, err_bind]
    · simp only [exec, update, hb, insertFill_self w.held.wf o (w.alive x) hm (by omega : pos ≤ _) hn, err_bind]
  · intro hk hmv
    subst hmv
    have hm : k.managed = false := by cases k <;> simp_all [Kind.managed]
    have hm' : ¬ k.managed = true := by rw [hm]; simp
    rw [run_append ops _ e, run_append ops _ e]
    constructor
    · obtain ⟨q, h', e', st⟩ := applyEnd_self_stays hm w.held.wf (w.held.own x) (i := i) (n := 1) (by omega)
      obtain ⟨s', l', e2, w2⟩ := w.update e' st (fun h => absurd h hm') ((w.ref x).append (((w.ref x).drop i).take 1))
      exact ⟨s', e2, w2.agrees⟩
    · obtain ⟨q, h', e', st⟩ := applyEnd_self_stays hm w.held.wf (w.held.own x) (i := 0) (n := (l x).length) (by omega)
      rw [List.drop_zero, List.take_length] at st
      obtain ⟨s', l', e2, w2⟩ := w.update e' st (fun h => absurd h hm') ((w.ref x).append (w.ref x))
      refine ⟨s', ?_, w2.agrees⟩
      simp only [exec, owns_sizeOf (w.held.own x), ok_bind]
      exact e2

/-- C75.  It is not so that an element of the array itself can be pushed: with a type that has a destructor `a.push_back(a[0])`
reads memory already given back. -/
theorem push_own_element_refuted : ¬ ∀ (k : Kind) (ops : List (Op Nat)) (a : Spec.Arrays Nat) (x i : Nat) (mv : Bool),
    Spec.run k 0 (fun _ => []) ops = some a → i < (a x).length →
    ∃ s, run k 0 start (ops ++ [.pushFrom x x i mv]) = .ok s ∧ size s x = .ok ((a x).length + 1) := by
  intro h
  obtain ⟨s, hs, _⟩ := h .object [.push 0 7 false] (Spec.put (fun _ => []) 0 [.live 7]) 0 0 false rfl (by simp [Spec.put])
  have := ((array_self_source_characterised (k := .object) (d := 0) [.push 0 7 false] (a := Spec.put (fun _ => []) 0 [.live 7]) rfl 0 0 1 0 false
    (by simp [Spec.put]) (by simp) (by simp)).1 (Or.inl rfl)).1
  rw [this] at hs; cases hs

/-- C75.  Nor that part of an array can be inserted into it, even when its block stays where it is: the elements behind the
position have been moved on, and the inserted ones are not those asked for. -/
theorem insert_own_elements_refuted : ¬ ∀ (ops : List (Op Nat)) (a : Spec.Arrays Nat) (x pos n i : Nat) (s : State Nat),
    Spec.run .plain 0 (fun _ => []) ops = some a → pos ≤ (a x).length → i + n ≤ (a x).length →
    run .plain 0 start (ops ++ [.insertFrom x pos n x i false]) = .ok s →
    Agrees .plain s (Spec.put a x (Spec.inserted (a x) pos (((a x).drop i).take n))) := by
  intro h
  have e : ∃ s, run .plain 0 start ([.listed 0 [1, 2, 3]] ++ [.insertFrom 0 0 1 0 2 false]) = .ok s ∧ get s 0 0 = .ok (.live 2) := ⟨_, rfl, rfl⟩
  obtain ⟨s, e1, e2⟩ := e
  have := h [.listed 0 [1, 2, 3]] _ 0 0 1 2 s rfl (by simp) (by simp [Spec.put]) e1
  have := (this 0).2.2 0 (.live 3) (by rfl) (Or.inr (by simp))
  rw [e2] at this
  simp at this

/-- C76.  What `remove` does, case by case.  `h'` is the memory afterwards; the array keeps the pointer it had. -/
theorem remove_characterised [DecidableEq A] {k : Kind} {d : A} (ops : List (Op A)) {a : Spec.Arrays A}
    (h : Spec.run k d (fun _ => []) ops = some a) {s : State A} (hs : run k d start ops = .ok s) (x : Nat) (v : A) :
    (∀ vs : List A, a x = vs.map .live → v ∉ vs → remove k s.heap (s.arr x) v = .ok (false, s.heap)) ∧
    (∀ us, a x = (us ++ [v]).map .live → v ∉ us → us ≠ [] →
      ∃ h', remove k s.heap (s.arr x) v = .ok (true, h') ∧ Agrees k { s with heap := h' } (Spec.put a x (us.map .live))) ∧
    (∀ us w, a x = (us ++ [v, w]).map .live → v ∉ us →
      ∃ h', remove k s.heap (s.arr x) v = .ok (true, h') ∧ Agrees k { s with heap := h' } (Spec.put a x ((us ++ [w]).map .live))) ∧
    (∀ us ws, a x = (us ++ v :: ws).map .live → v ∉ us → 2 ≤ ws.length →
      remove k s.heap (s.arr x) v = .error (if k = .object then .overLive else .overlap)) ∧
    (a x = [.live v] →
      ∃ h', remove k s.heap (s.arr x) v = .ok (true, h') ∧ size { s with heap := h' } x = .error .useAfterFree) := by
  obtain ⟨s', l, e, w⟩ := run_ok ops (shows_start k) h
  rw [hs] at e; cases e
  have o := w.held.own x
  have eql : ∀ vs : List A, a x = vs.map .live → l x = vs.map .live := by
    intro vs hv
    refine List.ext_getElem? fun i => ?_
    rw [← hv]
    cases hc : (a x)[i]? with
    | none =>
      rw [List.getElem?_eq_none_iff] at hc ⊢
      rw [← (w.ref x).length]; exact hc
    | some c =>
      obtain ⟨c', h1, h2⟩ := (w.ref x).get hc
      have hl : c.alive = true := by
        have := List.mem_of_getElem? hc
        rw [hv] at this
        obtain ⟨u, _, hu⟩ := List.mem_map.mp this
        rw [← hu]; rfl
      rw [refines_alive h2 hl]; exact h1
  have blk : ∀ vs : List A, a x = vs.map .live → vs ≠ [] → ∃ b, s.arr x = some b ∧ s.heap.blocks b = some (vs.map .live) := by
    intro vs hv hne
    have hl := eql vs hv
    obtain ⟨b, hb, eb⟩ := owns_some o (i := 0) (by rw [hl, List.length_map]; exact List.length_pos_iff.mpr hne)
    exact ⟨b, hb, by rw [eb, hl]⟩
  have cut : ∀ (vs us : List A) (b : Nat), a x = vs.map .live → us ≠ [] → s.arr x = some b → us.length + 1 = vs.length →
      Agrees k { s with heap := s.heap.put b (some (us.map .live)) } (Spec.put a x (us.map .live)) := by
    intro vs us b hv hne hb _
    have oo := o
    rw [hb] at oo
    have st : Step s.heap (s.heap.put b (some (us.map .live))) (s.arr x) (s.arr x) (us.map .live) := by
      rw [hb]
      refine ⟨⟨put_blocks_self .., by simpa using hne⟩, ?_, fun _ h1 h2 => absurd h1 h2, fun _ h1 => Or.inl h1, ?_⟩
      · intro b' h1 _
        have h3 : b' ≠ b := fun e => h1 (e ▸ rfl)
        rw [put_blocks_ne _ h3]
      · intro b' h1
        have : b' ≠ b := by intro hb; subst hb; have o1 := oo.1; rw [w.held.wf _ h1] at o1; cases o1
        rw [put_blocks_ne _ this]; exact w.held.wf _ h1
    have hh := w.held.update st
    rw [set_self] at hh
    exact (w.put hh (Alive.live k us) (Ref.refl _ _)).agrees
  refine ⟨?_, ?_, ?_, ?_, ?_⟩
  · intro vs hv hn
    have hl := eql vs hv
    cases hp : s.arr x with
    | none =>
      simp only [remove, sizeOf, ok_bind, all, findFrom, pure_ok]
    | some b =>
      rw [hp] at o
      simp only [remove, sizeOf, o.1, ok_bind, all, Heap.cells, hl, findFrom_none vs 0 hn, pure_ok]
  · intro us hv hn hne
    obtain ⟨b, hb, eb⟩ := blk _ hv (by simp)
    refine ⟨_, ?_, cut _ us b hv hne hb (by simp)⟩
    rw [hb]; exact remove_last eb hn hne
  · intro us u hv hn
    obtain ⟨b, hb, eb⟩ := blk _ hv (by simp)
    refine ⟨_, ?_, cut _ (us ++ [u]) b hv (by simp) hb (by simp)⟩
    rw [hb]; exact remove_before_last eb hn
  · intro us ws hv hn hw
    obtain ⟨b, hb, eb⟩ := blk _ hv (by simp)
    rw [hb, remove_many eb hn hw]
    cases k <;> rfl
  · intro hv
    obtain ⟨b, hb, eb⟩ := blk [v] hv (by simp)
    refine ⟨s.heap.put b none, ?_, ?_⟩
    · rw [hb]; exact remove_only eb
    · simp [size, hb, sizeOf]

/-- C76.  It is not so that `remove` takes an element out of the array: with two elements behind it, it faults. -/
theorem remove_refuted : ¬ ∀ (k : Kind) (ops : List (Op Nat)) (a : Spec.Arrays Nat) (s : State Nat) (x v : Nat) (us ws : List Nat),
    Spec.run k 0 (fun _ => []) ops = some a → run k 0 start ops = .ok s → a x = (us ++ v :: ws).map .live → v ∉ us →
    ∃ h', remove k s.heap (s.arr x) v = .ok (true, h') ∧ Agrees k { s with heap := h' } (Spec.put a x ((us ++ ws).map .live)) := by
  intro h
  obtain ⟨s, hs, _⟩ := array_history (k := .object) (d := 0) [.listed 0 [1, 2, 3]] rfl
  obtain ⟨h', e, _⟩ := h .object [.listed 0 [1, 2, 3]] _ s 0 1 [] [2, 3] rfl hs rfl (by simp)
  have := (remove_characterised (k := .object) (d := 0) [.listed 0 [1, 2, 3]] rfl hs 0 1).2.2.2.1 [] [2, 3] rfl (by simp) (by simp)
  rw [this] at e; cases e

/-- C76.  Nor that the array can be used after its only element was removed. -/
theorem remove_only_refuted : ¬ ∀ (k : Kind) (ops : List (Op Nat)) (a : Spec.Arrays Nat) (s : State Nat) (x v : Nat) (h' : Heap Nat),
    Spec.run k 0 (fun _ => []) ops = some a → run k 0 start ops = .ok s → remove k s.heap (s.arr x) v = .ok (true, h') →
    ∃ n, size { s with heap := h' } x = .ok n := by
  intro h
  obtain ⟨s, hs, _⟩ := array_history (k := .plain) (d := 0) [.push 0 5 false] rfl
  obtain ⟨h', e, e2⟩ := (remove_characterised (k := .plain) (d := 0) [.push 0 5 false] rfl hs 0 5).2.2.2.2 rfl
  obtain ⟨n, hn⟩ := h .plain [.push 0 5 false] _ s 0 5 h' rfl hs e
  rw [e2] at hn; cases hn

/-- C77.  `insert_with_forward_resize` of nothing leaves the size as it was, whatever size was asked for. -/
theorem forward_insert_nothing_characterised {k : Kind} {d : A} {mv : Bool} (h : Heap A) (p : Ptr) (pos t : Nat) (s : Src A) :
    forwardInsertResize k d mv h p pos 0 s t = .ok (p, h) := rfl

/-- C77.  So it does not always give the array the size asked for, as `insert_with_resize` does. -/
theorem forward_insert_resize_refuted : ¬ ∀ (ops : List (Op Nat)) (a : Spec.Arrays Nat) (s : State Nat) (x pos t : Nat) (vs : List Nat),
    Spec.run .plain 0 (fun _ => []) ops = some a → pos ≤ (a x).length → (a x).length + vs.length ≤ t →
    run .plain 0 start (ops ++ [.forwardInsertResize x pos vs t false]) = .ok s → size s x = .ok t := by
  intro h
  have e : ∃ s, run .plain 0 start ([] ++ [.forwardInsertResize 0 0 ([] : List Nat) 3 false]) = .ok s ∧ size s 0 = .ok 0 := ⟨_, rfl, rfl⟩
  obtain ⟨s, e1, e2⟩ := e
  have := h [] (fun _ => []) s 0 0 3 [] rfl (by simp) (by simp) e1
  rw [e2] at this
  simp at this

/-- C77.  A block used in part, as character buffers use it: the used elements are at its front.  `insert_with_resize` with
`with_used_size` gives a block of the size asked for whose front is the used part with the new elements at their place. -/
theorem part_used_insert {d : A} (ops : List (Op A)) {a : Spec.Arrays A} (h : Spec.run .plain d (fun _ => []) ops = some a)
    {s : State A} (hs : run .plain d start ops = .ok s) (x pos used t : Nat) (vs : List A) (mv : Bool)
    (hp : pos ≤ used) (hu : used ≤ (a x).length) (ht : used + vs.length ≤ t) (hl : (a x).length ≤ t) :
    ∃ q h', partInsertResize .plain d mv s.heap (s.arr x) pos vs.length (.out vs) t used = .ok (q, h') ∧
      Agrees .plain (s.set x q h')
        (Spec.put a x (Spec.inserted ((a x).take used) pos (vs.map .live) ++ List.replicate (t - (used + vs.length)) .raw)) := by
  obtain ⟨s', l, e, w⟩ := run_ok ops (shows_start .plain) h
  rw [hs] at e; cases e
  have len := (w.ref x).length
  obtain ⟨q, h', z, e, lz, st⟩ := partInsertResize_ok (d := d) (mv := mv) w.held.wf (w.held.own x) (vs := vs) hp (by omega) ht (by omega)
  refine ⟨q, h', e, ?_⟩
  have hf : Fresh .plain d (t - (used + vs.length)) z := ⟨lz, fun h => absurd rfl h⟩
  exact (w.put (w.held.update st) (fun h => by cases h) ((((w.ref x).take used).inserted (Ref.refl _ _) pos).append (Ref.fresh hf))).agrees

/-- C77.  The same with the used elements at the end of the block. -/
theorem part_used_forward_insert {d : A} (ops : List (Op A)) {a : Spec.Arrays A} (h : Spec.run .plain d (fun _ => []) ops = some a)
    {s : State A} (hs : run .plain d start ops = .ok s) (x pos used t : Nat) (vs : List A) (mv : Bool) (hv : vs ≠ [])
    (hp : pos ≤ used) (hu : used ≤ (a x).length) (ht : used + vs.length ≤ t) (hl : (a x).length ≤ t) :
    ∃ q h', partForwardInsertResize .plain d mv s.heap (s.arr x) ((a x).length - used + pos) vs.length (.out vs) t used = .ok (q, h') ∧
      Agrees .plain (s.set x q h')
        (Spec.put a x (List.replicate (t - (used + vs.length)) .raw ++
          Spec.inserted ((a x).drop ((a x).length - used)) pos (vs.map .live))) := by
  obtain ⟨s', l, e, w⟩ := run_ok ops (shows_start .plain) h
  rw [hs] at e; cases e
  have len := (w.ref x).length
  obtain ⟨q, h', z, e, lz, st⟩ := partForwardInsertResize_ok (d := d) (mv := mv) w.held.wf (w.held.own x) (vs := vs) hv hp (by omega) ht (by omega)
  rw [← len] at e st
  refine ⟨q, h', e, ?_⟩
  have hf : Fresh .plain d (t - (used + vs.length)) z := ⟨lz, fun h => absurd rfl h⟩
  exact (w.put (w.held.update st) (fun h => by cases h)
    ((Ref.fresh hf).append (((w.ref x).drop ((a x).length - used)).inserted (Ref.refl _ _) pos))).agrees

/-- C77.  With default values (and so with the elements behind the used part to be made), `with_used_size` makes them at the
wrong place: the inserted elements are overwritten. -/
theorem part_used_insert_refuted : ¬ ∀ (ops : List (Op Nat)) (a : Spec.Arrays Nat) (s : State Nat) (x pos used t : Nat) (vs : List Nat)
    (q : Ptr) (h' : Heap Nat), Spec.run .init 0 (fun _ => []) ops = some a → run .init 0 start ops = .ok s → pos ≤ used →
    used ≤ (a x).length → (a x).length + vs.length ≤ t →
    partInsertResize .init 0 false s.heap (s.arr x) pos vs.length (.out vs) t used = .ok (q, h') →
    Agrees .init (s.set x q h')
      (Spec.put a x (Spec.inserted ((a x).take used) pos (vs.map .live) ++ List.replicate (t - (used + vs.length)) (.live 0))) := by
  intro h
  have e : ∃ s q h', run .init 0 start [.listed 0 [1, 2, 3]] = .ok s ∧
      partInsertResize .init 0 false s.heap (s.arr 0) 3 1 (.out [9]) 5 3 = .ok (q, h') ∧ get (s.set 0 q h') 0 2 = .ok (.live 0) :=
    ⟨_, _, _, rfl, rfl, rfl⟩
  obtain ⟨s, q, h', e1, e2, e3⟩ := e
  have := h [.listed 0 [1, 2, 3]] _ s 0 3 3 5 [9] q h' rfl e1 (by simp) (by simp [Spec.put]) (by simp [Spec.put]) e2
  have := (this 0).2.2 2 (.live 3) (by rfl) (Or.inl (by simp))
  rw [e3] at this
  simp at this

/-- C77.  A block used as a whole, of elements of any kind: the same call is right when no room is left behind the new elements,
or when as much is left as was used before (only then are the new default elements made where they belong). -/
theorem part_used_insert_whole {k : Kind} {d : A} (ops : List (Op A)) {a : Spec.Arrays A} (h : Spec.run k d (fun _ => []) ops = some a)
    {s : State A} (hs : run k d start ops = .ok s) (x pos t : Nat) (vs : List A) (mv : Bool) (hp : pos ≤ (a x).length)
    (ht : t = (a x).length + vs.length ∨ t = 2 * (a x).length + vs.length) :
    ∃ q h', partInsertResize k d mv s.heap (s.arr x) pos vs.length (.out vs) t (a x).length = .ok (q, h') ∧
      Agrees k (s.set x q h')
        (Spec.put a x (Spec.inserted (a x) pos (vs.map .live) ++ List.replicate (t - ((a x).length + vs.length)) (Spec.fresh k d))) := by
  obtain ⟨s', l, e, w⟩ := run_ok ops (shows_start k) h
  rw [hs] at e; cases e
  have len := (w.ref x).length
  rw [len] at hp ht ⊢
  obtain ⟨q, h', f, e, fr, st⟩ := partInsertResize_whole (d := d) (mv := mv) w.held.wf (w.held.own x) (w.alive x) (vs := vs) hp ht
  refine ⟨q, h', e, ?_⟩
  exact (w.put (w.held.update st) (((w.alive x).inserted (Alive.live k vs) pos).append fr.alive)
    (((w.ref x).inserted (Ref.refl _ _) pos).append (Ref.fresh fr))).agrees

example : ∃ s q h', run .object 0 start [.listed 0 [1, 2, 3]] = .ok s ∧
    partInsertResize .object 0 false s.heap (s.arr 0) 1 1 (.out [9]) 7 3 = .ok (q, h') ∧ get (s.set 0 q h') 0 1 = .ok (.live 9) ∧
    get (s.set 0 q h') 0 3 = .ok (.live 3) ∧ get (s.set 0 q h') 0 4 = .ok (.live 0) :=
  ⟨_, _, _, rfl, rfl, rfl, rfl, rfl⟩

/-- C77.  Elements with a default value and no destructor, any used part: exactly what the call leaves.  The used part with the new
elements is followed by what the block held there; then default elements, as many as the whole block grew by beyond the inserted
ones, are written at `t - used`, over whatever is there.  If they do not fit there, they are written outside the block. -/
theorem part_used_insert_characterised {d : A} (ops : List (Op A)) {a : Spec.Arrays A} (h : Spec.run .init d (fun _ => []) ops = some a)
    {s : State A} (hs : run .init d start ops = .ok s) (x pos used t : Nat) (vs : List A) (mv : Bool)
    (hp : pos ≤ used) (hu : used ≤ (a x).length) (ht : (a x).length + vs.length ≤ t) :
    let kept := Spec.inserted ((a x).take used) pos (vs.map .live) ++
      (a x ++ List.replicate (t - (a x).length) Cell.raw).drop (used + vs.length)
    let grown := t - ((a x).length + vs.length)
    (t ≤ (a x).length + used + vs.length →
      ∃ q h', partInsertResize .init d mv s.heap (s.arr x) pos vs.length (.out vs) t used = .ok (q, h') ∧
        Agrees .init (s.set x q h')
          (Spec.put a x (kept.take (t - used) ++ List.replicate grown (.live d) ++ kept.drop (t - used + grown)))) ∧
    ((a x).length + used + vs.length < t →
      partInsertResize .init d mv s.heap (s.arr x) pos vs.length (.out vs) t used = .error .bounds) := by
  obtain ⟨s', l, e, w⟩ := run_ok ops (shows_start .init) h
  rw [hs] at e; cases e
  have hl : a x = l x := (w.ref x).eq (by decide)
  rw [hl] at hu ht ⊢
  obtain ⟨h1, h2⟩ := partInsertResize_init (d := d) (mv := mv) w.held.wf (w.held.own x) (vs := vs) hp hu ht
  refine ⟨fun hb => ?_, h2⟩
  obtain ⟨q, h', e, st⟩ := h1 hb
  refine ⟨q, h', e, ?_⟩
  have := (w.put (w.held.update st) (fun h => by cases h) (Ref.refl .init _)).agrees
  rw [initInserted, splice, List.length_replicate] at this
  exact this

example : ∃ s q h', run .init 0 start [.listed 0 [1, 2, 3]] = .ok s ∧
    partInsertResize .init 0 false s.heap (s.arr 0) 1 1 (.out [9]) 6 2 = .ok (q, h') ∧ get (s.set 0 q h') 0 1 = .ok (.live 9) ∧
    get (s.set 0 q h') 0 2 = .ok (.live 2) ∧ get (s.set 0 q h') 0 3 = .ok .raw ∧ get (s.set 0 q h') 0 4 = .ok (.live 0) :=
  ⟨_, _, _, rfl, rfl, rfl, rfl, rfl, rfl⟩

/-- C77.  With the used elements at the end of the block the call never succeeds for elements with a destructor: it makes new
elements over living ones, whatever the position, the elements and the size asked for. -/
theorem part_used_forward_insert_objects_refuted {d : A} (ops : List (Op A)) {a : Spec.Arrays A}
    (h : Spec.run .object d (fun _ => []) ops = some a) {s : State A} (hs : run .object d start ops = .ok s) (x pos t : Nat) (vs : List A)
    (mv : Bool) (hv : vs ≠ []) (hx : a x ≠ []) (hp : pos ≤ (a x).length) (ht : (a x).length + vs.length ≤ t) :
    partForwardInsertResize .object d mv s.heap (s.arr x) pos vs.length (.out vs) t (a x).length = .error .overLive := by
  obtain ⟨s', l, e, w⟩ := run_ok ops (shows_start .object) h
  rw [hs] at e; cases e
  have len := (w.ref x).length
  rw [len] at hp ht ⊢
  refine partForwardInsertResize_fails w.held.wf (w.held.own x) (w.alive x) hv ?_ hp ht
  intro h0; rw [h0] at len
  exact hx (List.length_eq_zero_iff.mp len)

example : ∃ a, Spec.run .object 0 (fun _ => []) [.listed 0 [1, 2, 3]] = some a ∧ a 0 = [.live 1, .live 2, .live 3] := ⟨_, rfl, rfl⟩

/-! ## Cases -/

/-- A history that reaches every part of the specification, with three arrays of a type that has a destructor. -/
def sample : List (Op Nat) :=
  [.listed 0 [1, 2, 3], .assign 1 0, .push 0 4 false, .insertFrom 1 1 2 0 2 true, .pushMove 2 0 0 false, .swap 0 2, .resize 1 7 false,
   .forwardResize 1 3 false, .write 1 0 9, .appendFrom 0 1 false, .insertResize 0 1 [5, 6] 8 false, .forwardInsertResize 2 0 [8] 6 false]

example : ∃ s, run .object 0 start sample = .ok s ∧ Agrees .object s
    (fun x => if x = 0 then [.live 1, .live 5, .live 6, .live 9, .live 0, .live 0, .live 0, .live 0]
      else if x = 1 then [.live 9, .live 0, .live 0]
      else if x = 2 then [.live 0, .live 8, .husk, .live 2, .live 3, .live 4] else []) := by
  have h : ∃ a, Spec.run .object 0 (fun _ => []) sample = some a ∧ (∀ x, 3 ≤ x → a x = []) ∧
      a 0 = [.live 1, .live 5, .live 6, .live 9, .live 0, .live 0, .live 0, .live 0] ∧
      a 1 = [.live 9, .live 0, .live 0] ∧ a 2 = [.live 0, .live 8, .husk, .live 2, .live 3, .live 4] := by
    refine ⟨_, rfl, ?_, rfl, rfl, rfl⟩
    intro x hx
    have h0 : x ≠ 0 := by omega
    have h1 : x ≠ 1 := by omega
    have h2 : x ≠ 2 := by omega
    simp [Spec.put, h0, h1, h2]
  obtain ⟨a, h, h3, h0, h1, h2⟩ := h
  obtain ⟨s, e, g⟩ := array_history sample h
  refine ⟨s, e, ?_⟩
  have : a = (fun x => if x = 0 then [.live 1, .live 5, .live 6, .live 9, .live 0, .live 0, .live 0, .live 0]
      else if x = 1 then [.live 9, .live 0, .live 0]
      else if x = 2 then [.live 0, .live 8, .husk, .live 2, .live 3, .live 4] else []) := by
    funext x
    by_cases e0 : x = 0
    · subst e0; exact h0
    · by_cases e1 : x = 1
      · subst e1; exact h1
      · by_cases e2 : x = 2
        · subst e2; exact h2
        · simp only [e0, e1, e2, if_false]; exact h3 x (by omega)
  rwa [this] at g

example : ∃ s, run .object 0 start [.listed 0 [1, 2], .assign 1 0, .clear 0, .clear 1] = .ok s ∧ ∀ b, s.heap.blocks b = none :=
  array_no_leak _ (a := Spec.put (Spec.put (Spec.put (Spec.put (fun _ => []) 0 [.live 1, .live 2]) 1 [.live 1, .live 2]) 0 []) 1 []) rfl
    (by intro x; simp only [Spec.put]; split
        · rfl
        · split
          · rfl
          · simp_all)

example : ∃ s, run .plain 0 start [.listed 0 [1, 2, 3], .appendFrom 0 0 false] = .ok s ∧ size s 0 = .ok 6 ∧ get s 0 5 = .ok (.live 3) :=
  ⟨_, rfl, rfl, rfl⟩

example : forEach (A := Nat) { heap := { blocks := fun _ => some [.live 1, .live 2], next := 1 }, arr := fun _ => some 0 } 0
    = .ok [.live 2, .live 1] := rfl

end ELC.Arr
