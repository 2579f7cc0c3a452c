import Verif.Arr.Refine
/-! Sources inside the array that is changed, removal, and blocks used in part. -/
namespace ELC.Arr

open Spec

variable {A : Type}

theorem run_append {k : Kind} {d : A} (ops : List (Op A)) (op : Op A) {s s' : State A} (h : run k d s ops = .ok s') :
    run k d s (ops ++ [op]) = exec k d s' op := by
  induction ops generalizing s with
  | nil => simp only [run, Except.ok.injEq] at h; subst h; simp only [List.nil_append, run]; cases exec k d s op <;> rfl
  | cons o ops ih =>
    simp only [run, List.cons_append] at h ⊢
    cases e : exec k d s o with
    | error f => rw [e] at h; cases h
    | ok s1 => rw [e] at h; exact ih h

theorem err_of_bind {B C : Type} {r : R B} {f : B → R C} {c : C} (h : (r >>= f) = .ok c) : ∃ b, r = .ok b ∧ f b = .ok c := by
  cases r with
  | error e => cases h
  | ok b => exact ⟨b, rfl, h⟩

theorem alloc_ptr (h : Heap A) {n : Nat} (hn : n ≠ 0) : (alloc h n).1 = some h.next := by simp [alloc, hn]

theorem realloc_moves {k : Kind} {h h' : Heap A} {b n : Nat} {l : List (Cell A)} {q : Ptr} (e : h.blocks b = some l) (hn : l.length < n)
    (hr : realloc k true h (some b) n = .ok (q, h')) : q = some h.next := by
  have h0 : n ≠ 0 := by omega
  have hle : ¬ n ≤ l.length := by omega
  simp only [realloc, ne_eq, h0, not_false_eq_true, if_true, e, if_neg hle, Except.ok.injEq, Prod.mk.injEq] at hr
  exact hr.1.symm

theorem sizeGrow_moves {k : Kind} {mv : Bool} {h h' : Heap A} {b n : Nat} {l : List (Cell A)} {q : Ptr} (m : k.managed = true ∨ mv = true)
    (e : h.blocks b = some l) (hn : l.length < n) (hr : sizeGrow k mv h (some b) n = .ok (q, h')) : q = some h.next := by
  unfold sizeGrow at hr
  by_cases hk : k.managed = true
  · rw [if_pos hk] at hr
    obtain ⟨_, _, hr⟩ := err_of_bind hr
    obtain ⟨_, _, hr⟩ := err_of_bind hr
    obtain ⟨_, _, hr⟩ := err_of_bind hr
    simp only [pure_ok, Except.ok.injEq, Prod.mk.injEq] at hr
    rw [← hr.1, alloc_ptr _ (by omega)]
  · rw [if_neg hk] at hr
    have hmv : mv = true := by rcases m with m | m; exact absurd m hk; exact m
    subst hmv
    exact realloc_moves e hn hr

theorem growInsert_moves {k : Kind} {mv : Bool} {h h' : Heap A} {b t pos n : Nat} {l : List (Cell A)} {q : Ptr} (m : k.managed = true ∨ mv = true)
    (e : h.blocks b = some l) (hn : l.length < t) (hr : growInsert k mv h (some b) t pos n = .ok (q, h')) : q = some h.next := by
  unfold growInsert at hr
  obtain ⟨_, _, hr⟩ := err_of_bind hr
  obtain ⟨_, _, hr⟩ := err_of_bind hr
  by_cases hk : k.managed = true
  · rw [if_pos hk] at hr
    obtain ⟨_, _, hr⟩ := err_of_bind hr
    obtain ⟨_, _, hr⟩ := err_of_bind hr
    obtain ⟨_, _, hr⟩ := err_of_bind hr
    simp only [pure_ok, Except.ok.injEq, Prod.mk.injEq] at hr
    rw [← hr.1, alloc_ptr _ (by omega)]
  · rw [if_neg hk] at hr
    have hmv : mv = true := by rcases m with m | m; exact absurd m hk; exact m
    subst hmv
    obtain ⟨⟨q', h1⟩, h2, hr⟩ := err_of_bind hr
    obtain ⟨_, _, hr⟩ := err_of_bind hr
    simp only [pure_ok, Except.ok.injEq, Prod.mk.injEq] at hr
    rw [← hr.1]
    exact realloc_moves e hn h2

theorem read_freed {h : Heap A} {b i : Nat} (e : h.blocks b = none) : h.read (some b) i = .error .useAfterFree := by
  simp [Heap.read, Heap.cells, e]

theorem copyConstruct_freed {k : Kind} {h : Heap A} {q : Ptr} {b i j n : Nat} (e : h.blocks b = none) (hq : q ≠ some b) (hn : n ≠ 0) :
    copyConstruct k h q i (.at_ (some b) j) n = .error .useAfterFree := by
  unfold copyConstruct
  split
  · obtain ⟨m, rfl⟩ := Nat.exists_eq_succ_of_ne_zero hn
    simp only [copyLoop, Src.read, read_freed e]
  · simp [Src.meets, hq, Src.readRange, Heap.readRange, hn, Heap.cells, e]

theorem fill_freed {k : Kind} {h : Heap A} {q : Ptr} {b i j n : Nat} (e : h.blocks b = none) (hn : n ≠ 0) :
    fill k h q i (.at_ (some b) j) n = .error .useAfterFree := by
  unfold fill
  split
  · obtain ⟨m, rfl⟩ := Nat.exists_eq_succ_of_ne_zero hn
    simp only [fillLoop, Src.read, read_freed e]
  · simp only [Src.read, read_freed e]

theorem applyEnd_self {k : Kind} {mv : Bool} {h : Heap A} (w : Wf h) {b : Nat} {l : List (Cell A)} (o : Owns h (some b) l) (al : Alive k l)
    (m : k.managed = true ∨ mv = true) {i n : Nat} (hn : n ≠ 0) :
    applyEnd k mv h (some b) (.at_ (some b) i) n = .error .useAfterFree := by
  obtain ⟨q, h', e, st⟩ := sizeGrow_ok (mv := mv) w o al (n := l.length + n) (by omega)
  have hq := sizeGrow_moves m o.1 (by omega) e
  have hne : q ≠ some b := by rw [hq]; intro h; cases h; exact wf_ne w o.1 rfl
  simp only [applyEnd, owns_sizeOf o, ok_bind, e, copyConstruct_freed (st.gone b rfl hne) hne hn, err_bind]

theorem applyEndMove_self {k : Kind} {mv : Bool} {h : Heap A} (w : Wf h) {b : Nat} {l : List (Cell A)} (o : Owns h (some b) l) (al : Alive k l)
    (m : k.managed = true ∨ mv = true) {i : Nat} :
    applyEndMove k mv h (some b) (some b) i = .error .useAfterFree := by
  obtain ⟨q, h', e, st⟩ := sizeGrow_ok (mv := mv) w o al (n := l.length + 1) (by omega)
  have hq := sizeGrow_moves m o.1 (by omega) e
  have hne : q ≠ some b := by rw [hq]; intro h; cases h; exact wf_ne w o.1 rfl
  have hg := st.gone b rfl hne
  simp only [applyEndMove, owns_sizeOf o, ok_bind, e]
  by_cases hk : k.managed = true
  · simp [hk, moveLoop, read_freed hg]
  · simp [hk, memcpy, memmove, hne, Heap.readRange, Heap.cells, hg]

theorem insertData_self {k : Kind} {mv : Bool} {h : Heap A} (w : Wf h) {b : Nat} {l : List (Cell A)} (o : Owns h (some b) l) (al : Alive k l)
    (m : k.managed = true ∨ mv = true) {pos i n : Nat} (hp : pos ≤ l.length) (hn : n ≠ 0) :
    insertData k mv h (some b) pos n (.at_ (some b) i) = .error .useAfterFree := by
  obtain ⟨q, h', _, e, _, _, st⟩ := growInsert_ok (mv := mv) w o al (t := l.length + n) (n := n) hp (by omega)
  have hq := growInsert_moves m o.1 (by omega) e
  have hne : q ≠ some b := by rw [hq]; intro h; cases h; exact wf_ne w o.1 rfl
  simp only [insertData, ne_eq, hn, not_false_eq_true, if_true, owns_sizeOf o, ok_bind, e, copyConstruct_freed (st.gone b rfl hne) hne hn, err_bind]

theorem insertFill_self {k : Kind} {mv : Bool} {h : Heap A} (w : Wf h) {b : Nat} {l : List (Cell A)} (o : Owns h (some b) l) (al : Alive k l)
    (m : k.managed = true ∨ mv = true) {pos i n : Nat} (hp : pos ≤ l.length) (hn : n ≠ 0) :
    insertFill k mv h (some b) pos n (.at_ (some b) i) = .error .useAfterFree := by
  obtain ⟨q, h', _, e, _, _, st⟩ := growInsert_ok (mv := mv) w o al (t := l.length + n) (n := n) hp (by omega)
  have hq := growInsert_moves m o.1 (by omega) e
  have hne : q ≠ some b := by rw [hq]; intro h; cases h; exact wf_ne w o.1 rfl
  simp only [insertFill, ne_eq, hn, not_false_eq_true, if_true, owns_sizeOf o, ok_bind, e, fill_freed (st.gone b rfl hne) hn, err_bind]

/-- When the block stays and elements are copied bytewise, elements of the array itself can be appended. -/
theorem applyEnd_self_stays {k : Kind} (hk : k.managed = false) {h : Heap A} (w : Wf h) {p : Ptr} {l : List (Cell A)} (o : Owns h p l)
    {i n : Nat} (hi : i + n ≤ l.length) :
    ∃ q h', applyEnd k false h p (.at_ p i) n = .ok (q, h') ∧ Step h h' p q (l ++ (l.drop i).take n) := by
  have hk' : k.managed ≠ true := by rw [hk]; simp
  by_cases hn : n = 0
  · subst hn
    have := applyEnd_ok (k := k) (mv := false) w o (fun h => absurd h hk') (s := .at_ p i) (m := []) (n := 0) rfl
      (fun h1 q l1 st => by
        refine ⟨fun _ _ i c hc => by simp at hc, fun _ _ => by simp [Src.readRange, Heap.readRange], fun j => ?_⟩
        simp only [Src.meets, List.length_nil, decide_eq_false_iff_not]
        omega) (fun h => absurd h hk')
    simpa using this
  · obtain ⟨b, hb, eb⟩ := owns_some o (i := i) (by omega)
    subst hb
    have e : sizeGrow k false h (some b) (l.length + n) = .ok (some b, h.put b (some (l ++ List.replicate n .raw))) := by
      have h1 : ¬ l.length + n ≤ l.length := by omega
      have h2 : ¬ l.length + n = 0 := by omega
      simp [sizeGrow, hk, realloc, h1, eb, hn]
    obtain ⟨q, h', e', st⟩ := sizeGrow_ok (k := k) (mv := false) w o (fun h => absurd h hk') (n := l.length + n) (by omega)
    rw [e] at e'
    simp only [Except.ok.injEq, Prod.mk.injEq] at e'
    obtain ⟨e1, e2⟩ := e'
    subst e1; subst e2
    rw [Nat.add_sub_cancel_left] at st
    have hr : (h.put b (some (l ++ List.replicate n .raw))).readRange (some b) i n = .ok ((l.drop i).take n) := by
      rw [readRange_ok (put_blocks_self ..) (by simp; omega), List.drop_append_of_le_length (by omega),
        List.take_append_of_le_length (by simp; omega)]
    have hm : Src.meets (A := A) (.at_ (some b) i) (some b) l.length n = false := by
      simp only [Src.meets, decide_eq_false_iff_not]; omega
    have hs : splice (l ++ List.replicate n (.raw : Cell A)) l.length ((l.drop i).take n) = l ++ (l.drop i).take n := by
      have := splice_mid (x := l) (y := raws n) (z := []) (y' := (l.drop i).take n) rfl (by simp; omega)
      simpa using this
    have s2 := st.over (l2 := l ++ (l.drop i).take n) (by simp; omega)
    refine ⟨_, _, ?_, s2⟩
    simp only [applyEnd, owns_sizeOf o, ok_bind, e, copyConstruct, hk, Bool.false_eq_true, if_false, hm, Src.readRange, hr]
    rw [writeRange_ok (put_blocks_self ..) (by simp; omega), hs]
    rfl

/-! ## Removal -/

theorem findFrom_none [DecidableEq A] {v : A} (vs : List A) (i : Nat) (h : v ∉ vs) : findFrom v i (vs.map .live) = .ok none := by
  induction vs generalizing i with
  | nil => rfl
  | cons w vs ih =>
    have h1 : ¬ w = v := fun e => h (by rw [e]; simp)
    simp only [List.map_cons, findFrom, h1, if_false]
    exact ih (i + 1) (fun h' => h (List.mem_cons_of_mem _ h'))

theorem findFrom_some [DecidableEq A] {v : A} (us ws : List A) (i : Nat) (h : v ∉ us) :
    findFrom v i ((us ++ v :: ws).map .live) = .ok (some (i + us.length)) := by
  induction us generalizing i with
  | nil => simp [findFrom]
  | cons w us ih =>
    have h1 : ¬ w = v := fun e => h (by rw [e]; simp)
    simp only [List.cons_append, List.map_cons, findFrom, h1, if_false]
    rw [ih (i + 1) (fun h' => h (List.mem_cons_of_mem _ h'))]
    simp only [List.length_cons]; congr 2; omega

theorem get_mid {x z : List (Cell A)} {c : Cell A} {i : Nat} (hi : i = x.length) : (x ++ c :: z)[i]? = some c := by
  subst hi; simp

theorem set_mid {x z : List (Cell A)} {c c' : Cell A} {i : Nat} (hi : i = x.length) : (x ++ c :: z).set i c' = x ++ c' :: z := by
  subst hi; simp

theorem destruct_one {k : Kind} {h : Heap A} {b : Nat} {x z : List (Cell A)} {v : A} (e : h.blocks b = some (x ++ .live v :: z)) :
    destruct k h (some b) x.length 1 = .ok (h.put b (some (x ++ (if k.managed then .raw else .live v) :: z))) := by
  unfold destruct
  by_cases hk : k.managed = true
  · simp only [hk, if_true, destructLoop, Nat.add_zero, read_ok e (get_mid rfl), Cell.alive, write_ok e (i := x.length) (by simp), set_mid]
  · simp only [hk, Bool.false_eq_true, if_false, put_same e]

/-- Two or more elements behind the removed one. -/
theorem remove_many [DecidableEq A] {k : Kind} {h : Heap A} {b : Nat} {us ws : List A} {v : A}
    (e : h.blocks b = some ((us ++ v :: ws).map .live)) (hv : v ∉ us) (hw : 2 ≤ ws.length) :
    remove k h (some b) v = .error (if k.managed then .overLive else .overlap) := by
  have e' : h.blocks b = some (us.map .live ++ .live v :: ws.map .live) := by rw [e]; simp
  have hd := destruct_one (k := k) e'
  rw [List.length_map] at hd
  have hlen : ((us ++ v :: ws).map (Cell.live : A → Cell A)).length - (us.length + 1) = ws.length := by simp; omega
  simp only [remove, sizeOf, e, ok_bind, all, Heap.cells, findFrom_some us ws 0 hv, Nat.zero_add, hd, hlen]
  by_cases hk : k.managed = true
  · simp only [hk, if_true, moveN]
    obtain ⟨n, hn⟩ : ∃ n, ws.length = n + 2 := ⟨ws.length - 2, by omega⟩
    have h1 : ∃ u, (us.map (Cell.live : A → Cell A) ++ .raw :: ws.map .live)[us.length + 1 + (n + 1)]? = some (.live u) := by
      refine ⟨ws[n + 1], ?_⟩
      rw [List.getElem?_append_right (by simp; omega)]
      simp only [List.length_map]
      rw [show us.length + 1 + (n + 1) - us.length = (n + 1) + 1 by omega, List.getElem?_cons_succ, List.getElem?_map,
        List.getElem?_eq_getElem (by omega)]
      rfl
    have h2 : ∃ u, (us.map (Cell.live : A → Cell A) ++ .raw :: ws.map .live)[us.length + (n + 1)]? = some (.live u) := by
      refine ⟨ws[n], ?_⟩
      rw [List.getElem?_append_right (by simp)]
      simp only [List.length_map]
      rw [show us.length + (n + 1) - us.length = n + 1 by omega, List.getElem?_cons_succ, List.getElem?_map,
        List.getElem?_eq_getElem (by omega)]
      rfl
    obtain ⟨u1, h1⟩ := h1
    obtain ⟨u2, h2⟩ := h2
    rw [hn]
    simp only [moveLoop, make, read_ok (put_blocks_self ..) h1, read_ok (put_blocks_self ..) h2, Cell.alive, hk, Bool.not_true,
      Bool.false_eq_true, if_false, Bool.and_true, if_true, err_bind]
  · simp only [hk, Bool.false_eq_true, if_false, moveN, memcpy]
    rw [if_pos ⟨trivial, by omega, by omega⟩]
    rfl

/-- What `alloc_size_cut` does to a block of which a part stays. -/
theorem sizeCut_ok {k : Kind} {h : Heap A} {b : Nat} {x z : List (Cell A)} (e : h.blocks b = some (x ++ z)) (hx : x ≠ [])
    (hz : k.managed = true → ∀ c ∈ z, c.alive = false) : sizeCut k h (some b) x.length = .ok (some b, h.put b (some x)) := by
  have h0 : ¬ x.length = 0 := by intro h; exact hx (List.length_eq_zero_iff.mp h)
  have hd : (k.managed && z.any Cell.alive) = false := by
    cases hk : k.managed
    · rfl
    · rw [Bool.true_and, List.any_eq_false]
      intro c hc; rw [hz hk c hc]; simp
  simp [sizeCut, realloc, h0, e]
  simpa using hd

/-- The last element removed. -/
theorem remove_last [DecidableEq A] {k : Kind} {h : Heap A} {b : Nat} {us : List A} {v : A}
    (e : h.blocks b = some ((us ++ [v]).map .live)) (hv : v ∉ us) (hu : us ≠ []) :
    remove k h (some b) v = .ok (true, h.put b (some (us.map .live))) := by
  have e' : h.blocks b = some (us.map .live ++ .live v :: []) := by rw [e]; simp
  have hd := destruct_one (k := k) e'
  rw [List.length_map] at hd
  have hlen : ((us ++ [v]).map (Cell.live : A → Cell A)).length - (us.length + 1) = 0 := by simp
  have hlen2 : ((us ++ [v]).map (Cell.live : A → Cell A)).length - 1 = (us.map (Cell.live : A → Cell A)).length := by simp
  have hc := sizeCut_ok (k := k) (h := h.put b (some (us.map .live ++ [if k.managed then .raw else .live v]))) (b := b) (x := us.map .live)
    (z := [if k.managed then .raw else .live v]) (put_blocks_self ..) (by simpa using hu) (by
      intro hk c hc; rw [List.mem_singleton] at hc; rw [hc, if_pos hk]; rfl)
  rw [put_put] at hc
  simp only [remove, sizeOf, e, ok_bind, all, Heap.cells, findFrom_some us [] 0 hv, Nat.zero_add, hd, hlen, moveN_zero, hlen2, hc, pure_ok]

/-- One element moved to the cell before it. -/
theorem moveN_one {k : Kind} {h : Heap A} {b : Nat} {x : List (Cell A)} {c : Cell A} {u : A} (e : h.blocks b = some (x ++ [c, .live u]))
    (hc : k.managed = true → c = .raw) :
    moveN k h (some b) x.length (some b) (x.length + 1) 1 = .ok (h.put b (some (x ++ [.live u, if k.managed then .raw else .live u]))) := by
  have g1 : (x ++ [c, .live u])[x.length + 1]? = some (.live u) := by
    rw [List.getElem?_append_right (by omega)]; simp
  have s1 : ∀ c' : Cell A, (x ++ [c, .live u]).set x.length c' = x ++ [c', .live u] := by
    intro c'; simp
  have s2 : ∀ c' c2 c3 : Cell A, (x ++ [c2, c3]).set (x.length + 1) c' = x ++ [c2, c'] := by
    intro c' c2 c3; rw [List.set_append_right _ _ (by omega)]; simp
  by_cases hk : k.managed = true
  · have hc := hc hk
    subst hc
    have g2 : (x ++ [.raw, .live u])[x.length]? = some (.raw : Cell A) := get_mid rfl
    have g3 : (x ++ [.live u, .husk])[x.length + 1]? = some (.husk : Cell A) := by
      rw [List.getElem?_append_right (by omega)]; simp
    have w1 : make k h (some b) x.length (.live u) = .ok (h.put b (some (x ++ [.live u, .live u]))) := by
      rw [make_ok e g2 (fun _ => rfl), s1]
    have w2 : (h.put b (some (x ++ [.live u, .live u]))).write (some b) (x.length + 1) .husk
        = .ok (h.put b (some (x ++ [.live u, .husk]))) := by
      rw [write_ok (put_blocks_self ..) (by simp), s2, put_put]
    have w3 : (h.put b (some (x ++ [.live u, .husk]))).write (some b) (x.length + 1) .raw
        = .ok (h.put b (some (x ++ [.live u, .raw]))) := by
      rw [write_ok (put_blocks_self ..) (by simp), s2, put_put]
    simp only [hk, if_true, moveN, moveLoop, Nat.add_zero, read_ok e g1, Cell.alive, Bool.not_true, Bool.false_eq_true, if_false, w1, w2,
      destructLoop, read_ok (put_blocks_self ..) g3, w3]
  · have hd : ((x ++ [c, .live u]).drop (x.length + 1)).take 1 = [.live u] := by
      rw [List.drop_append, List.drop_of_length_le (by omega)]; simp
    simp only [hk, Bool.false_eq_true, if_false, moveN, memcpy]
    rw [if_neg (by omega), memmove, readRange_ok e (by simp), hd]
    dsimp only
    rw [writeRange_ok e (by simp), splice_one _ (by simp), s1]

/-- The last but one removed. -/
theorem remove_before_last [DecidableEq A] {k : Kind} {h : Heap A} {b : Nat} {us : List A} {v u : A}
    (e : h.blocks b = some ((us ++ [v, u]).map .live)) (hv : v ∉ us) :
    remove k h (some b) v = .ok (true, h.put b (some ((us ++ [u]).map .live))) := by
  have e' : h.blocks b = some (us.map .live ++ .live v :: [.live u]) := by rw [e]; simp
  have hd := destruct_one (k := k) e'
  have hf := findFrom_some us [u] 0 hv
  have hm := moveN_one (k := k) (h := h.put b (some (us.map .live ++ [if k.managed then .raw else .live v, .live u]))) (b := b)
    (x := us.map .live) (put_blocks_self ..) (fun hk => if_pos hk)
  rw [put_put] at hm
  have hc := sizeCut_ok (k := k) (h := h.put b (some (us.map .live ++ [.live u] ++ [if k.managed then .raw else .live u]))) (b := b)
    (x := us.map .live ++ [.live u]) (z := [if k.managed then .raw else .live u]) (put_blocks_self ..) (by simp) (by
      intro hk c hc; rw [List.mem_singleton] at hc; rw [hc, if_pos hk]; rfl)
  rw [put_put, List.append_assoc] at hc
  simp only [List.length_append, List.length_map, List.length_cons, List.length_nil, Nat.zero_add, List.cons_append, List.nil_append]
    at hc hd hm hf
  simp only [remove, sizeOf, e, ok_bind, all, Heap.cells, hf, List.length_map, List.length_append, List.length_cons, List.length_nil,
    Nat.zero_add, hd]
  rw [show us.length + (1 + 1) - (us.length + 1) = 1 by omega, hm, show us.length + (1 + 1) - 1 = us.length + 1 by omega]
  simp only [ok_bind, hc, pure_ok, List.map_append, List.map_cons, List.map_nil]

/-- The only element removed: the block is given back. -/
theorem remove_only [DecidableEq A] {k : Kind} {h : Heap A} {b : Nat} {v : A} (e : h.blocks b = some [.live v]) :
    remove k h (some b) v = .ok (true, h.put b none) := by
  have hd := destruct_one (k := k) (x := []) (z := []) (h := h) (b := b) (v := v) e
  have hf := findFrom_some (A := A) (v := v) [] [] 0 (by simp)
  simp only [List.length_nil, List.nil_append, List.map_cons, List.map_nil, Nat.zero_add] at hd hf
  simp only [remove, sizeOf, e, ok_bind, all, Heap.cells, hf, hd, List.length_cons, List.length_nil, Nat.zero_add, Nat.sub_self,
    moveN_zero]
  by_cases hk : k.managed = true
  · simp [sizeCut, realloc, free, hk, Cell.alive, put_put]
  · simp [sizeCut, realloc, free, hk, put_put]

/-! ## Blocks used in part -/

theorem partInsertResize_ok {d : A} {mv : Bool} {h : Heap A} (w : Wf h) {p : Ptr} {l : List (Cell A)} (o : Owns h p l)
    {pos used t : Nat} {vs : List A} (hp : pos ≤ used) (hu : used ≤ l.length) (ht : used + vs.length ≤ t) (hl : l.length ≤ t) :
    ∃ q h' z, partInsertResize .plain d mv h p pos vs.length (.out vs) t used = .ok (q, h') ∧ z.length = t - (used + vs.length) ∧
      Step h h' p q (inserted (l.take used) pos (vs.map .live) ++ z) := by
  obtain ⟨q, h1, e1, s1⟩ := realloc_grow (k := .plain) (mv := mv) w o (n := t) hl
  generalize hL : l ++ List.replicate (t - l.length) (.raw : Cell A) = L at s1
  have hlen : L.length = t := by rw [← hL]; simp; omega
  have hm : minus used pos = .ok (used - pos) := by simp [minus, hp]
  have mm := memmove_ok s1.own (i := pos + vs.length) (j := pos) (n := used - pos) (by omega) (by omega)
  have d1 : (L.drop pos).take (used - pos) = (l.take used).drop pos := by
    rw [← hL, List.drop_append_of_le_length (by omega), List.take_append_of_le_length (by simp; omega), List.drop_take]
  rw [d1] at mm
  have l1 : ((l.take used).drop pos).length = used - pos := by simp; omega
  have s2 := s1.over (l2 := splice L (pos + vs.length) ((l.take used).drop pos)) (by rw [splice_length]; omega)
  have e2 : splice L (pos + vs.length) ((l.take used).drop pos)
      = (l.take used).take pos ++ (L.drop pos).take vs.length ++ ((l.take used).drop pos ++ L.drop (pos + vs.length + (used - pos))) := by
    unfold splice
    rw [List.take_add, l1, List.append_assoc _ ((l.take used).drop pos)]
    congr 2
    rw [← hL, List.take_append_of_le_length (by omega), List.take_take, Nat.min_eq_left hp]
  rw [e2] at s2 mm
  have m3 := copyConstruct_ok (k := .plain) (m := vs.map .live) s2.own (i := pos) (by simp; omega) (fun h => by cases h) (gives_out vs)
    (fun h => by cases h)
  rw [splice_mid (by simp; omega) (by simp; omega), List.length_map] at m3
  have s3 := s2.over (l2 := inserted (l.take used) pos (vs.map .live) ++ L.drop (pos + vs.length + (used - pos))) (by
    simp [inserted]; omega)
  refine ⟨q, _, L.drop (pos + vs.length + (used - pos)), ?_, by simp; omega, s3⟩
  have h4 : (Kind.managed .plain) = false := rfl
  simp only [partInsertResize, partGrowInsert, owns_sizeOf o, ok_bind, hm, h4, Bool.false_eq_true, if_false, e1, mm, m3, pure_ok, if_true]
  simp only [inserted, List.append_assoc]

theorem partForwardInsertResize_ok {d : A} {mv : Bool} {h : Heap A} (w : Wf h) {p : Ptr} {l : List (Cell A)} (o : Owns h p l)
    {pos used t : Nat} {vs : List A} (hv : vs ≠ []) (hp : pos ≤ used) (hu : used ≤ l.length) (ht : used + vs.length ≤ t) (hl : l.length ≤ t) :
    ∃ q h' z, partForwardInsertResize .plain d mv h p (l.length - used + pos) vs.length (.out vs) t used = .ok (q, h') ∧
      z.length = t - (used + vs.length) ∧
      Step h h' p q (z ++ inserted (l.drop (l.length - used)) pos (vs.map .live)) := by
  obtain ⟨q, h1, e1, s1⟩ := realloc_grow (k := .plain) (mv := mv) w o (n := t) hl
  generalize hL : l ++ List.replicate (t - l.length) (.raw : Cell A) = L at s1
  have hlen : L.length = t := by rw [← hL]; simp; omega
  generalize hub : l.length - used = ub
  generalize hua : t - (used + vs.length) = ua
  have m1 : minus t (used + vs.length) = .ok ua := by simp [minus, ht, hua]
  have m2 : minus l.length used = .ok ub := by simp [minus, hu, hub]
  have m3 : minus l.length (ub + pos) = .ok (used - pos) := by
    rw [minus, if_pos (by omega)]; congr 1; omega
  have m4 : minus (ub + pos) ub = .ok pos := by simp [minus]
  have mm := memmove_ok s1.own (i := ua + pos + vs.length) (j := ub + pos) (n := used - pos) (by omega) (by omega)
  have d1 : (L.drop (ub + pos)).take (used - pos) = (l.drop ub).drop pos := by
    rw [← hL, List.drop_append_of_le_length (by omega), List.take_append_of_le_length (by simp; omega), List.drop_drop,
      List.take_of_length_le (by simp; omega)]
  rw [d1] at mm
  have l1 : ((l.drop ub).drop pos).length = used - pos := by simp; omega
  have e2 : splice L (ua + pos + vs.length) ((l.drop ub).drop pos) = L.take (ua + pos + vs.length) ++ (l.drop ub).drop pos := by
    unfold splice
    rw [List.drop_of_length_le (l := L) (by omega), List.append_nil]
  rw [e2] at mm
  have len2 : (L.take (ua + pos + vs.length) ++ (l.drop ub).drop pos).length = t := by
    rw [List.length_append, l1, List.length_take]; omega
  have s2 := s1.over (l2 := L.take (ua + pos + vs.length) ++ (l.drop ub).drop pos) (by omega)
  have mm2 := memmove_ok s2.own (i := ua) (j := ub) (n := pos) (by omega) (by omega)
  have d2 : ((L.take (ua + pos + vs.length) ++ (l.drop ub).drop pos).drop ub).take pos = (l.drop ub).take pos := by
    rw [List.drop_append_of_le_length (by rw [List.length_take]; omega),
      List.take_append_of_le_length (by rw [List.length_drop, List.length_take]; omega), List.drop_take, List.take_take,
      Nat.min_eq_left (by omega), ← hL, List.drop_append_of_le_length (by omega), List.take_append_of_le_length (by simp; omega)]
  rw [d2] at mm2
  have l2 : ((l.drop ub).take pos).length = pos := by simp; omega
  have e3 : splice (L.take (ua + pos + vs.length) ++ (l.drop ub).drop pos) ua ((l.drop ub).take pos)
      = L.take ua ++ (l.drop ub).take pos ++ (L.drop (ua + pos)).take vs.length ++ (l.drop ub).drop pos := by
    unfold splice
    rw [l2, List.take_append_of_le_length (by rw [List.length_take]; omega), List.take_take,
      Nat.min_eq_left (show ua ≤ ua + pos + vs.length by omega), List.drop_append_of_le_length (by rw [List.length_take]; omega), List.drop_take,
      Nat.add_sub_cancel_left]
    simp only [List.append_assoc]
  have s3 := s2.over (l2 := splice (L.take (ua + pos + vs.length) ++ (l.drop ub).drop pos) ua ((l.drop ub).take pos)) (by rw [splice_length]; omega)
  rw [e3] at mm2 s3
  have m5 := copyConstruct_ok (k := .plain) (m := vs.map .live) s3.own (i := ua + pos) (by
      simp only [List.length_append, l1, l2, List.length_take, List.length_drop, List.length_map]; omega) (fun h => by cases h) (gives_out vs)
    (fun h => by cases h)
  rw [splice_mid (by rw [List.length_append, l2, List.length_take]; omega) (by simp; omega), List.length_map] at m5
  have s4 := s3.over (l2 := L.take ua ++ inserted (l.drop ub) pos (vs.map .live)) (by
    simp only [inserted, List.length_append, List.length_map, List.length_take, List.length_drop]; omega)
  refine ⟨q, _, L.take ua, ?_, by simp; omega, s4⟩
  have h4 : (Kind.managed .plain) = false := rfl
  have h5 : vs.length ≠ 0 := fun h => hv (List.length_eq_zero_iff.mp h)
  simp only [partForwardInsertResize, partForwardGrowInsert, ne_eq, h5, not_false_eq_true, owns_sizeOf o, ok_bind, m1, m2, m3, m4, h4,
    Bool.false_eq_true, if_false, e1, mm, mm2, hub, hua, Nat.add_sub_cancel_left, m5, pure_ok, if_true]
  simp only [inserted, List.append_assoc]

end ELC.Arr
