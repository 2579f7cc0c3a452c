import Verif.Arr.Spec
/-! The block operations, one by one. -/
namespace ELC.Arr

variable {A : Type}

@[simp] theorem ok_bind {B C : Type} (a : B) (f : B → R C) : ((Except.ok a : R B) >>= f) = f a := rfl
@[simp] theorem pure_ok {B : Type} (a : B) : (pure a : R B) = .ok a := rfl
@[simp] theorem err_bind {B C : Type} (e : Fault) (f : B → R C) : ((Except.error e : R B) >>= f) = .error e := rfl

/-! ## Lists -/

/-- `l` written over `cs` from `i` on. -/
def splice (cs : List (Cell A)) (i : Nat) (l : List (Cell A)) : List (Cell A) := cs.take i ++ l ++ cs.drop (i + l.length)

theorem splice_length {cs l : List (Cell A)} {i : Nat} (h : i + l.length ≤ cs.length) : (splice cs i l).length = cs.length := by
  simp [splice]; omega

theorem splice_nil {cs : List (Cell A)} {i : Nat} : splice cs i [] = cs := by simp [splice]

theorem splice_get {cs l : List (Cell A)} {i : Nat} (h : i + l.length ≤ cs.length) (j : Nat) :
    (splice cs i l)[j]? = if j < i then cs[j]? else if j < i + l.length then l[j - i]? else cs[j]? := by
  have hl : (cs.take i).length = i := by simp; omega
  unfold splice
  by_cases h1 : j < i
  · rw [List.append_assoc, List.getElem?_append_left (by omega), if_pos h1, List.getElem?_take_of_lt h1]
  · rw [if_neg h1]
    by_cases h2 : j < i + l.length
    · rw [if_pos h2, List.getElem?_append_left (by simp; omega), List.getElem?_append_right (by omega), hl]
    · rw [if_neg h2, List.getElem?_append_right (by simp; omega), List.getElem?_drop]
      congr 1; simp; omega

theorem splice_set {cs l : List (Cell A)} {i n : Nat} {c : Cell A} (hl : l.length = n) (h : i + n < cs.length) :
    splice (cs.set (i + n) c) i l = splice cs i (l ++ [c]) := by
  apply List.ext_getElem?
  intro j
  rw [splice_get (by simp; omega), splice_get (by simp; omega)]
  by_cases h1 : j < i
  · rw [if_pos h1, if_pos h1, List.getElem?_set_ne (by omega)]
  · rw [if_neg h1, if_neg h1]
    by_cases h2 : j < i + l.length
    · rw [if_pos h2, if_pos (by simp; omega), List.getElem?_append_left (by omega)]
    · rw [if_neg h2]
      by_cases h3 : j = i + n
      · subst h3
        rw [if_pos (by simp; omega), List.getElem?_set_self (by omega), List.getElem?_append_right (by omega)]
        simp [hl]
      · rw [if_neg (by simp; omega), List.getElem?_set_ne (by omega)]

theorem snoc_of_length {l : List (Cell A)} {n : Nat} (h : l.length = n + 1) : ∃ l' c, l = l' ++ [c] ∧ l'.length = n := by
  rcases List.eq_nil_or_concat l with e | ⟨l', c, e⟩
  · subst e; simp at h
  · refine ⟨l', c, ?_, ?_⟩
    · simpa [List.concat_eq_append] using e
    · subst e; simp at h; exact h

/-! ## Memory -/

theorem put_same {h : Heap A} {b : Nat} {cs : List (Cell A)} (e : h.blocks b = some cs) : h.put b (some cs) = h := by
  cases h; simp only [Heap.put, Heap.mk.injEq, and_true] at e ⊢
  funext x; by_cases hx : x = b
  · subst hx; simp [e]
  · simp [hx]

theorem put_put (h : Heap A) (b : Nat) (c c' : Option (List (Cell A))) : (h.put b c).put b c' = h.put b c' := by
  simp only [Heap.put, Heap.mk.injEq, and_true]
  funext x; by_cases hx : x = b <;> simp [hx]

theorem put_comm (h : Heap A) {b b' : Nat} (n : b ≠ b') (c c' : Option (List (Cell A))) :
    (h.put b c).put b' c' = (h.put b' c').put b c := by
  simp only [Heap.put, Heap.mk.injEq, and_true]
  funext x
  by_cases hx : x = b
  · subst hx; simp [n]
  · by_cases hy : x = b'
    · subst hy; simp [Ne.symm n]
    · simp [hx, hy]

@[simp] theorem put_blocks_self (h : Heap A) (b : Nat) (c : Option (List (Cell A))) : (h.put b c).blocks b = c := by simp [Heap.put]
theorem put_blocks_ne (h : Heap A) {b b' : Nat} (n : b' ≠ b) (c : Option (List (Cell A))) : (h.put b c).blocks b' = h.blocks b' := by
  simp [Heap.put, n]
@[simp] theorem put_next (h : Heap A) (b : Nat) (c : Option (List (Cell A))) : (h.put b c).next = h.next := rfl

theorem read_ok {h : Heap A} {b i : Nat} {cs : List (Cell A)} {c : Cell A} (e : h.blocks b = some cs) (g : cs[i]? = some c) :
    h.read (some b) i = .ok c := by simp [Heap.read, Heap.cells, e, g]

theorem write_ok {h : Heap A} {b i : Nat} {cs : List (Cell A)} {c : Cell A} (e : h.blocks b = some cs) (g : i < cs.length) :
    h.write (some b) i c = .ok (h.put b (some (cs.set i c))) := by simp [Heap.write, Heap.cells, e, g]

theorem readRange_ok {h : Heap A} {b i n : Nat} {cs : List (Cell A)} (e : h.blocks b = some cs) (g : i + n ≤ cs.length) :
    h.readRange (some b) i n = .ok ((cs.drop i).take n) := by
  unfold Heap.readRange
  by_cases hn : n = 0
  · simp [hn]
  · simp [hn, Heap.cells, e, g]

theorem writeRange_ok {h : Heap A} {b i : Nat} {cs l : List (Cell A)} (e : h.blocks b = some cs) (g : i + l.length ≤ cs.length) :
    h.writeRange (some b) i l = .ok (h.put b (some (splice cs i l))) := by
  unfold Heap.writeRange
  by_cases hl : l = []
  · subst hl; rw [if_pos rfl, splice_nil, put_same e]
  · simp [hl, Heap.cells, e, g, splice]

theorem make_ok {k : Kind} {h : Heap A} {b i : Nat} {cs : List (Cell A)} {old c : Cell A} (e : h.blocks b = some cs)
    (g : cs[i]? = some old) (m : k.managed = true → old.alive = false) :
    make k h (some b) i c = .ok (h.put b (some (cs.set i c))) := by
  have hi : i < cs.length := by rcases Nat.lt_or_ge i cs.length with h | h; exact h; rw [List.getElem?_eq_none h] at g; cases g
  unfold make
  rw [read_ok e g]
  dsimp only
  cases hk : k.managed
  · simpa using write_ok e hi
  · simpa [m hk] using write_ok e hi

/-- Places `i … i+n-1` of `cs` hold nothing that has to be destroyed. -/
def Dead (k : Kind) (cs : List (Cell A)) (i n : Nat) : Prop :=
  k.managed = true → ∀ j, i ≤ j → j < i + n → ∀ c, cs[j]? = some c → c.alive = false

theorem Dead.set {k : Kind} {cs : List (Cell A)} {i n : Nat} {c : Cell A} (d : Dead k cs i (n + 1)) : Dead k (cs.set (i + n) c) i n := by
  intro hk j h1 h2 c' g
  rw [List.getElem?_set_ne (by omega)] at g
  exact d hk j h1 (by omega) c' g

theorem get_some {B : Type} {cs : List B} {i : Nat} (h : i < cs.length) : ∃ c, cs[i]? = some c := ⟨cs[i], List.getElem?_eq_getElem h⟩

theorem makeLoop_ok {k : Kind} {b i : Nat} {c : Cell A} (n : Nat) {h : Heap A} {cs : List (Cell A)} (e : h.blocks b = some cs)
    (g : i + n ≤ cs.length) (d : Dead k cs i n) :
    makeLoop k (some b) i c n h = .ok (h.put b (some (splice cs i (List.replicate n c)))) := by
  induction n generalizing h cs with
  | zero => simp only [makeLoop, List.replicate_zero]; rw [splice_nil, put_same e]
  | succ n ih =>
    obtain ⟨old, ho⟩ := get_some (show i + n < cs.length by omega)
    have := make_ok (k := k) (c := c) e ho (fun hk => d hk _ (by omega) (by omega) _ ho)
    simp only [makeLoop, this]
    rw [ih (put_blocks_self ..) (by simp; omega) d.set, put_put, splice_set (by simp) (by omega), ← List.replicate_succ']

/-- `s` gives `l`, whatever happens to the block `q`. -/
structure Gives (h : Heap A) (q : Ptr) (s : Src A) (l : List (Cell A)) : Prop where
  one : ∀ h' : Heap A, (∀ b, q ≠ some b → h'.blocks b = h.blocks b) → ∀ i c, l[i]? = some c → s.read h' i = .ok c
  range : ∀ h' : Heap A, (∀ b, q ≠ some b → h'.blocks b = h.blocks b) → s.readRange h' l.length = .ok l
  apart : ∀ i, s.meets q i l.length = false

theorem copyLoop_ok {k : Kind} {b i : Nat} {s : Src A} (l : List (Cell A)) (n : Nat) (hn : l.length = n) {h0 h : Heap A} {cs : List (Cell A)}
    (e : h.blocks b = some cs)
    (g : i + n ≤ cs.length) (d : Dead k cs i n)
    (one : ∀ h' : Heap A, (∀ b', b' ≠ b → h'.blocks b' = h0.blocks b') → ∀ i c, l[i]? = some c → s.read h' i = .ok c)
    (al : ∀ c ∈ l, c.alive = true) (hh : ∀ b', b' ≠ b → h.blocks b' = h0.blocks b') :
    copyLoop k (some b) i s n h = .ok (h.put b (some (splice cs i l))) := by
  induction n generalizing h cs l with
  | zero =>
    have : l = [] := List.length_eq_zero_iff.mp hn
    subst this
    simp only [copyLoop]; rw [splice_nil, put_same e]
  | succ n ih =>
    obtain ⟨l', c, rfl, hl'⟩ := snoc_of_length hn
    obtain ⟨old, ho⟩ := get_some (show i + n < cs.length by omega)
    have hm := make_ok (k := k) (c := c) e ho (fun hk => d hk _ (by omega) (by omega) _ ho)
    have hr := one h hh n c (by rw [List.getElem?_append_right (by omega)]; simp [hl'])
    simp only [copyLoop, hr, al c (by simp), Bool.not_true, Bool.false_eq_true, if_false, hm]
    rw [ih l' hl' (put_blocks_self ..) (by simp; omega) d.set (fun h' hh' j c' hj => one h' hh' j c' (by
        rw [List.getElem?_append_left]; exact hj
        rcases Nat.lt_or_ge j l'.length with h | h; exact h; rw [List.getElem?_eq_none h] at hj; cases hj))
      (fun c' hc' => al c' (by simp [hc'])) (fun b' hb => by rw [put_blocks_ne _ hb, hh b' hb]), put_put,
      splice_set hl' (by omega)]

theorem fillLoop_ok {k : Kind} {b i : Nat} {s : Src A} {c : Cell A} (n : Nat) {h0 h : Heap A} {cs : List (Cell A)} (e : h.blocks b = some cs)
    (g : i + n ≤ cs.length) (d : Dead k cs i n)
    (one : ∀ h' : Heap A, (∀ b', b' ≠ b → h'.blocks b' = h0.blocks b') → s.read h' 0 = .ok c)
    (al : c.alive = true) (hh : ∀ b', b' ≠ b → h.blocks b' = h0.blocks b') :
    fillLoop k (some b) i s n h = .ok (h.put b (some (splice cs i (List.replicate n c)))) := by
  induction n generalizing h cs with
  | zero => simp only [fillLoop, List.replicate_zero]; rw [splice_nil, put_same e]
  | succ n ih =>
    obtain ⟨old, ho⟩ := get_some (show i + n < cs.length by omega)
    have hm := make_ok (k := k) (c := c) e ho (fun hk => d hk _ (by omega) (by omega) _ ho)
    simp only [fillLoop, one h hh, al, Bool.not_true, Bool.false_eq_true, if_false, hm]
    rw [ih (put_blocks_self ..) (by simp; omega) d.set (fun b' hb => by rw [put_blocks_ne _ hb, hh b' hb]), put_put,
      splice_set (by simp) (by omega), ← List.replicate_succ']

theorem destructLoop_ok {b i : Nat} (n : Nat) {h : Heap A} {cs : List (Cell A)} (e : h.blocks b = some cs) (g : i + n ≤ cs.length)
    (al : ∀ j, i ≤ j → j < i + n → ∀ c, cs[j]? = some c → c.alive = true) :
    destructLoop (some b) i n h = .ok (h.put b (some (splice cs i (List.replicate n .raw)))) := by
  induction n generalizing h cs with
  | zero => simp only [destructLoop, List.replicate_zero]; rw [splice_nil, put_same e]
  | succ n ih =>
    obtain ⟨c, hc⟩ := get_some (show i + n < cs.length by omega)
    simp only [destructLoop, read_ok e hc, al _ (by omega) (by omega) c hc, if_true, write_ok e (show i + n < cs.length by omega)]
    rw [ih (put_blocks_self ..) (by simp; omega) (fun j h1 h2 c' g' => by
        rw [List.getElem?_set_ne (by omega)] at g'; exact al j h1 (by omega) c' g'), put_put,
      splice_set (by simp) (by omega), ← List.replicate_succ']

theorem moveLoop_ok {k : Kind} {b i b' j : Nat} (hb : b ≠ b') (n : Nat) {h : Heap A} {cs cs' l : List (Cell A)} (e : h.blocks b = some cs)
    (e' : h.blocks b' = some cs') (g : i + n ≤ cs.length) (d : Dead k cs i n) (g' : j + n ≤ cs'.length)
    (hl : (cs'.drop j).take n = l) (al : ∀ c ∈ l, c.alive = true) :
    moveLoop k (some b) i (some b') j n h =
      .ok ((h.put b (some (splice cs i l))).put b' (some (splice cs' j (List.replicate n .husk)))) := by
  induction n generalizing h cs cs' l with
  | zero =>
    simp only [moveLoop, List.replicate_zero]
    simp at hl; subst hl
    rw [splice_nil, splice_nil, put_same e, put_same e']
  | succ n ih =>
    obtain ⟨c, hc⟩ := get_some (show j + n < cs'.length by omega)
    obtain ⟨old, ho⟩ := get_some (show i + n < cs.length by omega)
    have hl2 : l = (cs'.drop j).take n ++ [c] := by
      rw [← hl, List.take_add_one, List.getElem?_drop, hc]; rfl
    subst hl2
    have hm := make_ok (k := k) (c := c) e ho (fun hk => d hk _ (by omega) (by omega) _ ho)
    have hlen : ((cs'.drop j).take n).length = n := by simp; omega
    simp only [moveLoop, read_ok e' hc, al c (by simp), Bool.not_true, Bool.false_eq_true, if_false, hm]
    rw [write_ok (cs := cs') (by rw [put_blocks_ne _ (Ne.symm hb), e']) (by omega)]
    dsimp only
    rw [ih (cs := cs.set (i + n) c) (cs' := cs'.set (j + n) .husk) (l := (cs'.drop j).take n)
      (by rw [put_blocks_ne _ hb, put_blocks_self]) (put_blocks_self ..) (by simp; omega) d.set (by simp; omega)
      (by
        apply List.ext_getElem?
        intro m
        by_cases hm : m < n
        · rw [List.getElem?_take_of_lt hm, List.getElem?_take_of_lt hm, List.getElem?_drop, List.getElem?_drop, List.getElem?_set_ne (by omega)]
        · rw [List.getElem?_eq_none (by simp; omega), List.getElem?_eq_none (by simp; omega)])
      (fun c' hc' => al c' (by simp [hc']))]
    rw [put_comm _ (Ne.symm hb), put_put, put_put,
      splice_set hlen (by omega), splice_set (by simp) (by omega), ← List.replicate_succ']

theorem splice_splice_same {cs l l' : List (Cell A)} {i : Nat} (h : i + l.length ≤ cs.length) (hl : l'.length = l.length) :
    splice (splice cs i l) i l' = splice cs i l' := by
  apply List.ext_getElem?
  intro j
  rw [splice_get (by rw [splice_length h]; omega), splice_get h, splice_get (by omega)]
  by_cases h1 : j < i
  · simp [h1]
  · by_cases h2 : j < i + l.length
    · simp [h1, h2, hl]
    · simp [h1, h2, hl]

theorem moveN_ok {k : Kind} (hk : k.managed = true) {b i b' j : Nat} (hb : b ≠ b') (n : Nat) {h : Heap A} {cs cs' l : List (Cell A)}
    (e : h.blocks b = some cs) (e' : h.blocks b' = some cs') (g : i + n ≤ cs.length) (d : Dead k cs i n) (g' : j + n ≤ cs'.length)
    (hl : (cs'.drop j).take n = l) (al : ∀ c ∈ l, c.alive = true) :
    moveN k h (some b) i (some b') j n =
      .ok ((h.put b (some (splice cs i l))).put b' (some (splice cs' j (List.replicate n .raw)))) := by
  unfold moveN
  rw [if_pos hk, moveLoop_ok hb n e e' g d g' hl al]
  dsimp only
  rw [destructLoop_ok n (put_blocks_self ..) (by rw [splice_length (by simpa using g')]; exact g') ?_, put_put,
    splice_splice_same (by simpa using g') (by simp)]
  intro m h1 h2 c hc
  rw [splice_get (by simpa using g'), if_neg (by omega), if_pos (by simpa using h2)] at hc
  rw [List.getElem?_replicate] at hc
  split at hc
  · cases hc; rfl
  · cases hc

theorem moveN_zero {k : Kind} {p q : Ptr} {i j : Nat} {h : Heap A} : moveN k h p i q j 0 = .ok h := by
  unfold moveN
  by_cases hk : k.managed = true
  · simp [hk, moveLoop, destructLoop]
  · have : ¬(p = q ∧ i < j + 0 ∧ j < i + 0) := by omega
    rw [if_neg hk, memcpy, if_neg this]
    simp [memmove, Heap.readRange, Heap.writeRange]

end ELC.Arr
