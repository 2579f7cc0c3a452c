import Verif.Arr.Steps
/-! The operations of arrays on memory. -/
namespace ELC.Arr

open Spec

variable {A : Type}

/-- Unused cells. -/
abbrev raws (n : Nat) : List (Cell A) := List.replicate n .raw

/-- The elements of managed types are there. -/
def Alive (k : Kind) (l : List (Cell A)) : Prop := k.managed = true → ∀ c ∈ l, c.alive = true

/-- Other blocks than `p`. -/
def Apart (p p' : Ptr) : Prop := ∀ b, p' = some b → p ≠ some b

theorem Step.other {h h1 : Heap A} {p q p' : Ptr} {l l' : List (Cell A)} (s : Step h h1 p q l) (o : Owns h p' l') (a : Apart p p') :
    Owns h1 p' l' ∧ Apart q p' := by
  cases p' with
  | none => exact ⟨o, fun b hb => by cases hb⟩
  | some b =>
    have hq : q ≠ some b := by
      intro e
      rcases s.new b e with h2 | h2
      · exact a b rfl h2
      · rw [o.1] at h2; cases h2
    refine ⟨⟨by rw [s.frame b (a b rfl) hq]; exact o.1, o.2⟩, ?_⟩
    intro b' hb; cases hb; exact hq

theorem gives_out {h : Heap A} {q : Ptr} (vs : List A) : Gives h q (.out vs) (vs.map .live) := by
  refine ⟨?_, ?_, fun _ => rfl⟩
  · intro h' _ i c hc
    rw [List.getElem?_map] at hc
    cases hv : vs[i]? with
    | none => rw [hv] at hc; cases hc
    | some v => rw [hv] at hc; cases hc; simp [Src.read, hv]
  · intro h' _
    simp [Src.readRange]

theorem gives_at {h : Heap A} {q p' : Ptr} {l' : List (Cell A)} (o : Owns h p' l') (a : Apart q p') {j n : Nat} (hn : j + n ≤ l'.length) :
    Gives h q (.at_ p' j) ((l'.drop j).take n) := by
  have hlen : ((l'.drop j).take n).length = n := by simp; omega
  cases p' with
  | none =>
    cases o
    have : n = 0 := by simp at hn; omega
    subst this
    refine ⟨?_, ?_, ?_⟩
    · intro _ _ i c hc; simp at hc
    · intro h' _; simp [Src.readRange, Heap.readRange]
    · intro i
      simp only [List.take_zero, Src.meets, List.length_nil]
      cases q <;> simp; omega
  | some b =>
    have hq := a b rfl
    refine ⟨?_, ?_, ?_⟩
    · intro h' hh i c hc
      have := lt_of_get hc
      rw [List.getElem?_take_of_lt (by omega), List.getElem?_drop] at hc
      exact read_ok (by rw [hh b hq]; exact o.1) hc
    · intro h' hh
      rw [hlen]
      exact readRange_ok (by rw [hh b hq]; exact o.1) hn
    · intro i
      simp only [Src.meets, decide_eq_false_iff_not]
      intro hc; exact hq hc.1

theorem gives_elem {h : Heap A} {q p' : Ptr} {l' : List (Cell A)} (o : Owns h p' l') (a : Apart q p') {j : Nat} {c : Cell A}
    (hc : l'[j]? = some c) : Gives h q (.at_ p' j) [c] := by
  have hj := lt_of_get hc
  have := gives_at o a (j := j) (n := 1) (by omega)
  rwa [List.take_one, List.head?_drop, hc] at this

theorem dead_raws {k : Kind} {x m z : List (Cell A)} {n i : Nat} (hi : i = x.length) (hm : m.length = n) (hr : k.managed = true → m = raws n) :
    Dead k (x ++ m ++ z) i n := by
  intro hk j h1 h2 c hc
  rw [List.getElem?_append_left (by simp; omega), List.getElem?_append_right (by omega), hr hk, List.getElem?_replicate] at hc
  split at hc
  · cases hc; rfl
  · cases hc

/-! ## Growth -/

theorem splice_front {n : Nat} {l : List (Cell A)} (h : l.length ≤ n) : splice (raws n) 0 l = l ++ raws (n - l.length) := by
  simp [splice]

theorem sizeGrow_ok {k : Kind} {mv : Bool} {h : Heap A} (w : Wf h) {p : Ptr} {l : List (Cell A)} (o : Owns h p l) (al : Alive k l) {n : Nat}
    (hn : l.length ≤ n) : ∃ q h', sizeGrow k mv h p n = .ok (q, h') ∧ Step h h' p q (l ++ raws (n - l.length)) := by
  by_cases hk : k.managed = true
  · have e : sizeGrow k mv h p n = reloc2 k h p n 0 0 l.length 0 l.length 0 := by
      simp only [sizeGrow, hk, if_true, owns_sizeOf o, ok_bind, reloc2, moveN_zero]
    obtain ⟨q, h', e', s⟩ := reloc2_ok hk w o (n := n) (i₁ := 0) (j₁ := 0) (n₁ := l.length) (i₂ := 0) (j₂ := l.length) (n₂ := 0)
      (by omega) (by omega) (by omega) (by omega) (by omega) (by omega)
      (fun m c hc => ⟨fun _ => Or.inl ⟨by omega, by have := lt_of_get hc; omega⟩, fun _ => al hk c (List.mem_of_getElem? hc)⟩)
    refine ⟨q, h', by rw [e, e'], ?_⟩
    simp only [List.take_zero, splice_nil, List.drop_zero, List.take_length] at s
    rwa [splice_front hn] at s
  · simp only [sizeGrow, hk, Bool.false_eq_true, if_false]
    exact realloc_grow w o hn

theorem raws_add (a b : Nat) : (raws (a + b) : List (Cell A)) = raws a ++ raws b := (List.replicate_append_replicate ..).symm

theorem growInsert_ok {k : Kind} {mv : Bool} {h : Heap A} (w : Wf h) {p : Ptr} {l : List (Cell A)} (o : Owns h p l) (al : Alive k l)
    {t pos n : Nat} (hp : pos ≤ l.length) (ht : l.length + n ≤ t) :
    ∃ q h' m, growInsert k mv h p t pos n = .ok (q, h') ∧ m.length = n ∧ (k.managed = true → m = raws n) ∧
      Step h h' p q (l.take pos ++ m ++ (l.drop pos ++ raws (t - (l.length + n)))) := by
  have hm : minus l.length pos = .ok (l.length - pos) := by simp [minus, hp]
  have l1 : (l.take pos).length = pos := by simp; omega
  have l2 : (l.drop pos).length = l.length - pos := by simp
  by_cases hk : k.managed = true
  · have e : growInsert k mv h p t pos n = reloc2 k h p t 0 0 pos (pos + n) pos (l.length - pos) := by
      simp only [growInsert, owns_sizeOf o, ok_bind, hm, hk, if_true, reloc2]
    obtain ⟨q, h', e', s⟩ := reloc2_ok hk w o (n := t) (i₁ := 0) (j₁ := 0) (n₁ := pos) (i₂ := pos + n) (j₂ := pos) (n₂ := l.length - pos)
      (by omega) (by omega) (by omega) (by omega) (by omega) (by omega)
      (fun m c hc => ⟨fun _ => by have := lt_of_get hc; omega, fun _ => al hk c (List.mem_of_getElem? hc)⟩)
    refine ⟨q, h', raws n, by rw [e, e'], by simp, fun _ => rfl, ?_⟩
    rw [List.drop_zero, List.take_of_length_le (l := l.drop pos) (by omega)] at s
    have : (raws t : List (Cell A)) = [] ++ raws pos ++ (raws n ++ (raws (l.length - pos) ++ raws (t - (l.length + n)))) := by
      rw [← raws_add, ← raws_add, List.nil_append, ← raws_add]; congr 1; omega
    rw [show (List.replicate t (.raw : Cell A)) = raws t from rfl, this, splice_mid (by simp) (by simp; omega), List.nil_append,
      ← List.append_assoc, ← List.append_assoc, splice_mid (by simp; omega) (by simp), List.append_assoc] at s
    exact s
  · obtain ⟨q, h1, e1, s1⟩ := realloc_grow (k := k) (mv := mv) w o (n := t) (by omega)
    have hlen : (l ++ raws (t - l.length)).length = t := by simp; omega
    have mm := memmove_ok s1.own (i := pos + n) (j := pos) (n := l.length - pos) (by rw [hlen]; omega) (by rw [hlen]; omega)
    have d : ((l ++ raws (t - l.length)).drop pos).take (l.length - pos) = l.drop pos := by
      rw [List.drop_append_of_le_length hp, List.take_append_of_le_length (by omega), List.take_of_length_le (by omega)]
    rw [d] at mm
    refine ⟨q, h1.over q (splice (l ++ raws (t - l.length)) (pos + n) (l.drop pos)), ((l ++ raws (t - l.length)).drop pos).take n, ?_, ?_,
      fun h => absurd h hk, ?_⟩
    · simp only [growInsert, owns_sizeOf o, ok_bind, hm, hk, Bool.false_eq_true, if_false, e1, mm, pure_ok]
    · simp; omega
    · have s2 := s1.over (l2 := splice (l ++ raws (t - l.length)) (pos + n) (l.drop pos)) (by
        rw [splice_length]; rw [hlen, l2]; omega)
      have : splice (l ++ raws (t - l.length)) (pos + n) (l.drop pos)
          = l.take pos ++ ((l ++ raws (t - l.length)).drop pos).take n ++ (l.drop pos ++ raws (t - (l.length + n))) := by
        unfold splice
        rw [List.take_add, List.take_append_of_le_length hp, l2, List.append_assoc _ (l.drop pos)]
        congr 2
        rw [List.drop_append]
        rw [List.drop_of_length_le (by omega), List.nil_append, List.drop_replicate]
        congr 1; omega
      rw [← this]; exact s2

theorem forwardCut_ok {k : Kind} {h : Heap A} (w : Wf h) {p : Ptr} {l : List (Cell A)} (o : Owns h p l) {t : Nat} (ht : t ≤ l.length)
    (al : k.managed = true → ∀ m c, l[m]? = some c → (c.alive = true ↔ l.length - t ≤ m)) :
    ∃ q h', forwardCut k h p t = .ok (q, h') ∧ Step h h' p q (l.drop (l.length - t)) := by
  have hm : minus l.length t = .ok (l.length - t) := by simp [minus, ht]
  have l1 : (l.drop (l.length - t)).length = t := by simp; omega
  by_cases hk : k.managed = true
  · have e : forwardCut k h p t = reloc2 k h p t 0 (l.length - t) t 0 0 0 := by
      simp only [forwardCut, owns_sizeOf o, ok_bind, hm, hk, if_true, reloc2, moveN_zero]
    obtain ⟨q, h', e', s⟩ := reloc2_ok hk w o (n := t) (i₁ := 0) (j₁ := l.length - t) (n₁ := t) (i₂ := 0) (j₂ := 0) (n₂ := 0)
      (by omega) (by omega) (by omega) (by omega) (by omega) (by omega)
      (fun m c hc => by rw [al hk m c hc]; have := lt_of_get hc; omega)
    refine ⟨q, h', by rw [e, e'], ?_⟩
    rw [List.take_zero, splice_nil, List.take_of_length_le (l := l.drop (l.length - t)) (by omega), splice_front (by omega), l1, Nat.sub_self,
      show (raws 0 : List (Cell A)) = [] from rfl, List.append_nil] at s
    exact s
  · have mm := memmove_ok o (i := 0) (j := l.length - t) (n := t) (by omega) (by omega)
    rw [List.take_of_length_le (l := l.drop (l.length - t)) (by omega)] at mm
    have sl : (splice l 0 (l.drop (l.length - t))).length = l.length := splice_length (by omega)
    have s1 := (Step.refl w o).over sl
    obtain ⟨q, h', e2, s2⟩ := realloc_cut (k := k) (mv := false) s1.wf s1.own (n := t) (by omega) (fun h => absurd h hk)
    refine ⟨q, h', ?_, ?_⟩
    · simp only [forwardCut, owns_sizeOf o, ok_bind, hm, hk, Bool.false_eq_true, if_false, mm, e2]
    · have : (splice l 0 (l.drop (l.length - t))).take t = l.drop (l.length - t) := by
        unfold splice
        rw [List.take_zero, List.nil_append, List.take_append_of_le_length (by omega), List.take_of_length_le (by omega)]
      rw [this] at s2
      refine ⟨s2.own, ?_, s2.gone, ?_, s2.wf⟩
      · intro b h1 h2; rw [s2.frame b h1 h2, s1.frame b h1 h1]
      · intro b h1
        rcases s2.new b h1 with h2 | h2
        · exact Or.inl h2
        · by_cases hb : p = some b
          · exact Or.inl hb
          · rw [s1.frame b hb hb] at h2; exact Or.inr h2

theorem forwardGrow_ok {k : Kind} {mv : Bool} {h : Heap A} (w : Wf h) {p : Ptr} {l : List (Cell A)} (o : Owns h p l) (al : Alive k l) {t : Nat}
    (ht : l.length ≤ t) : ∃ q h' m, forwardGrow k mv h p t = .ok (q, h') ∧ m.length = t - l.length ∧
      (k.managed = true → m = raws (t - l.length)) ∧ Step h h' p q (m ++ l) := by
  have hm : minus t l.length = .ok (t - l.length) := by simp [minus, ht]
  by_cases hk : k.managed = true
  · have e : forwardGrow k mv h p t = reloc2 k h p t (t - l.length) 0 l.length 0 l.length 0 := by
      simp only [forwardGrow, owns_sizeOf o, ok_bind, hm, hk, if_true, reloc2, moveN_zero]
    obtain ⟨q, h', e', s⟩ := reloc2_ok hk w o (n := t) (i₁ := t - l.length) (j₁ := 0) (n₁ := l.length) (i₂ := 0) (j₂ := l.length) (n₂ := 0)
      (by omega) (by omega) (by omega) (by omega) (by omega) (by omega)
      (fun m c hc => ⟨fun _ => by have := lt_of_get hc; omega, fun _ => al hk c (List.mem_of_getElem? hc)⟩)
    refine ⟨q, h', raws (t - l.length), by rw [e, e'], by simp, fun _ => rfl, ?_⟩
    rw [List.take_zero, splice_nil, List.drop_zero, List.take_length] at s
    have : (raws t : List (Cell A)) = raws (t - l.length) ++ raws l.length ++ [] := by
      rw [List.append_nil, ← raws_add]; congr 1; omega
    rw [show (List.replicate t (.raw : Cell A)) = raws t from rfl, this, splice_mid (by simp) (by simp), List.append_nil] at s
    exact s
  · obtain ⟨q, h1, e1, s1⟩ := realloc_grow (k := k) (mv := mv) w o (n := t) ht
    have hlen : (l ++ raws (t - l.length)).length = t := by simp; omega
    have mm := memmove_ok s1.own (i := t - l.length) (j := 0) (n := l.length) (by rw [hlen]; omega) (by rw [hlen]; omega)
    have d : ((l ++ raws (t - l.length)).drop 0).take l.length = l := by
      rw [List.drop_zero, List.take_append_of_le_length (Nat.le_refl _), List.take_length]
    rw [d] at mm
    refine ⟨q, h1.over q (splice (l ++ raws (t - l.length)) (t - l.length) l), (l ++ raws (t - l.length)).take (t - l.length), ?_, ?_,
      fun h => absurd h hk, ?_⟩
    · simp only [forwardGrow, owns_sizeOf o, ok_bind, hm, hk, Bool.false_eq_true, if_false, e1, mm, pure_ok]
    · simp
    · have s2 := s1.over (l2 := splice (l ++ raws (t - l.length)) (t - l.length) l) (by rw [splice_length]; rw [hlen]; omega)
      have hs : splice (l ++ raws (t - l.length)) (t - l.length) l = (l ++ raws (t - l.length)).take (t - l.length) ++ l := by
        unfold splice
        rw [List.drop_of_length_le (by rw [hlen]; omega), List.append_nil]
      rw [← hs]
      exact s2

theorem forwardGrowInsert_ok {k : Kind} {mv : Bool} {h : Heap A} (w : Wf h) {p : Ptr} {l : List (Cell A)} (o : Owns h p l) (al : Alive k l)
    {t pos n : Nat} (hp : pos ≤ l.length) (ht : l.length + n ≤ t) :
    ∃ q h' m0 m, forwardGrowInsert k mv h p t pos n = .ok (q, h') ∧ m0.length = t - l.length - n ∧
      (k.managed = true → m0 = raws (t - l.length - n)) ∧ m.length = n ∧ (k.managed = true → m = raws n) ∧
      Step h h' p q (m0 ++ (l.take pos ++ m ++ l.drop pos)) := by
  have hm1 : minus t l.length = .ok (t - l.length) := by simp [minus]; omega
  have hm2 : minus (t - l.length) n = .ok (t - l.length - n) := by simp [minus]; omega
  have hm3 : minus l.length pos = .ok (l.length - pos) := by simp [minus, hp]
  have l1 : (l.take pos).length = pos := by simp; omega
  have l2 : (l.drop pos).length = l.length - pos := by simp
  generalize hb : t - l.length - n = before at *
  by_cases hk : k.managed = true
  · have e : forwardGrowInsert k mv h p t pos n = reloc2 k h p t before 0 pos (before + pos + n) pos (l.length - pos) := by
      simp only [forwardGrowInsert, owns_sizeOf o, ok_bind, hm1, hm2, hm3, hk, if_true, reloc2]
    obtain ⟨q, h', e', s⟩ := reloc2_ok hk w o (n := t) (i₁ := before) (j₁ := 0) (n₁ := pos) (i₂ := before + pos + n) (j₂ := pos)
      (n₂ := l.length - pos) (by omega) (by omega) (by omega) (by omega) (by omega) (by omega)
      (fun m c hc => ⟨fun _ => by have := lt_of_get hc; omega, fun _ => al hk c (List.mem_of_getElem? hc)⟩)
    refine ⟨q, h', raws before, raws n, by rw [e, e'], by simp, fun _ => rfl, by simp, fun _ => rfl, ?_⟩
    rw [List.drop_zero, List.take_of_length_le (l := l.drop pos) (by omega)] at s
    have : (raws t : List (Cell A)) = raws before ++ raws pos ++ (raws n ++ (raws (l.length - pos) ++ [])) := by
      rw [List.append_nil, ← raws_add, ← raws_add, ← raws_add]; congr 1; omega
    rw [show (List.replicate t (.raw : Cell A)) = raws t from rfl, this, splice_mid (by simp) (by simp; omega),
      ← List.append_assoc, ← List.append_assoc, splice_mid (by simp; omega) (by simp), List.append_nil] at s
    rw [← List.append_assoc, ← List.append_assoc]
    exact s
  · obtain ⟨q, h1, e1, s1⟩ := realloc_grow (k := k) (mv := mv) w o (n := t) (by omega)
    generalize hL : l ++ List.replicate (t - l.length) (.raw : Cell A) = L at s1
    have hlen : L.length = t := by rw [← hL]; simp; omega
    have mm := memmove_ok s1.own (i := before + pos + n) (j := pos) (n := l.length - pos) (by omega) (by omega)
    have d : (L.drop pos).take (l.length - pos) = l.drop pos := by
      rw [← hL, List.drop_append_of_le_length hp, List.take_append_of_le_length (by omega), List.take_of_length_le (by omega)]
    rw [d] at mm
    have e3 : splice L (before + pos + n) (l.drop pos) = L.take (before + pos + n) ++ l.drop pos := by
      unfold splice
      rw [List.drop_of_length_le (l := L) (by omega), List.append_nil]
    rw [e3] at mm
    have len3 : (L.take (before + pos + n) ++ l.drop pos).length = t := by simp; omega
    have s2 := s1.over (l2 := L.take (before + pos + n) ++ l.drop pos) (by omega)
    have mm2 := memmove_ok s2.own (i := before) (j := 0) (n := pos) (by omega) (by omega)
    have d2 : ((L.take (before + pos + n) ++ l.drop pos).drop 0).take pos = l.take pos := by
      rw [List.drop_zero, List.take_append_of_le_length (by simp; omega), List.take_take, Nat.min_eq_left (by omega), ← hL,
        List.take_append_of_le_length hp]
    rw [d2] at mm2
    have s3 := s2.over (l2 := splice (L.take (before + pos + n) ++ l.drop pos) before (l.take pos)) (by rw [splice_length]; omega)
    have e4 : splice (L.take (before + pos + n) ++ l.drop pos) before (l.take pos)
        = L.take before ++ (l.take pos ++ (L.drop (before + pos)).take n ++ l.drop pos) := by
      unfold splice
      rw [l1, List.take_append_of_le_length (by simp; omega), List.take_take, Nat.min_eq_left (show before ≤ before + pos + n by omega),
        List.drop_append_of_le_length (by simp; omega), List.drop_take, Nat.add_sub_cancel_left]
      simp only [List.append_assoc]
    rw [e4] at mm2 s3
    refine ⟨q, _, L.take before, (L.drop (before + pos)).take n, ?_, by simp; omega, fun h => absurd h hk, by simp; omega,
      fun h => absurd h hk, s3⟩
    simp only [forwardGrowInsert, owns_sizeOf o, ok_bind, hm1, hm2, hm3, hk, Bool.false_eq_true, if_false, e1, mm, mm2, pure_ok]

/-! ## The operations -/

/-- `m` is what `n` new elements hold: the default value, or anything if they are not initialised. -/
def Fresh (k : Kind) (d : A) (n : Nat) (m : List (Cell A)) : Prop := m.length = n ∧ (k ≠ .plain → m = List.replicate n (.live d))

theorem Fresh.alive {k : Kind} {d : A} {n : Nat} {m : List (Cell A)} (f : Fresh k d n m) : Alive k m := by
  intro hk c hc
  have : k ≠ .plain := by intro h; subst h; cases hk
  rw [f.2 this] at hc
  rw [(List.mem_replicate.mp hc).2]; rfl

theorem getN_ok {k : Kind} {d : A} {h : Heap A} (w : Wf h) (n : Nat) :
    ∃ q h' m, getN k d h n = .ok (q, h') ∧ Fresh k d n m ∧ Step h h' none q m := by
  have s := alloc_step w n
  obtain ⟨m, h1, h2, h3⟩ := construct_ok (k := k) (d := d) s.own (i := 0) (n := n) (by simp)
    (by simpa using dead_raws (k := k) (x := []) (z := []) (m := raws n) (n := n) rfl (by simp) (fun _ => rfl))
  have e : splice (List.replicate n (.raw : Cell A)) 0 m = m := by simp [splice, h1]
  rw [e] at h3
  exact ⟨_, _, m, by simp only [getN, h3, ok_bind, pure_ok], ⟨h1, h2⟩, s.over (by simpa using h1)⟩

theorem getFill_ok {k : Kind} {h : Heap A} (w : Wf h) (n : Nat) (v : A) :
    ∃ q h', getFill k h n (.out [v]) = .ok (q, h') ∧ Step h h' none q (List.replicate n (.live v)) := by
  have s := alloc_step w n
  have h3 := fill_ok (k := k) s.own (i := 0) (n := n) (by simp)
    (by simpa using dead_raws (k := k) (x := []) (z := []) (m := raws n) (n := n) rfl (by simp) (fun _ => rfl))
    (gives_out [v]) rfl
  have e : splice (List.replicate n (.raw : Cell A)) 0 (List.replicate n (.live v)) = List.replicate n (.live v) := by simp [splice]
  rw [e] at h3
  exact ⟨_, _, by simp only [getFill, h3, ok_bind, pure_ok], s.over (by simp)⟩

theorem asArray_ok {k : Kind} {h : Heap A} (w : Wf h) {s : Src A} {m : List (Cell A)} {n : Nat} (hn : n = m.length)
    (g : ∀ h1 q, Step h h1 none q (raws n) → Gives h1 q s m) (al : Alive k m) :
    ∃ q h', asArray k h s n = .ok (q, h') ∧ Step h h' none q m := by
  subst hn
  have st := alloc_step w m.length
  have h3 := copyConstruct_ok (k := k) (m := m) st.own (i := 0) (by simp)
    (by simpa using dead_raws (k := k) (x := []) (z := []) (m := raws m.length) (n := m.length) rfl (by simp) (fun _ => rfl))
    (g _ _ st) al
  have e : splice (List.replicate m.length (.raw : Cell A)) 0 m = m := by simp [splice]
  rw [e] at h3
  exact ⟨_, _, by simp only [asArray, h3, ok_bind, pure_ok], st.over (by simp)⟩

theorem applyEnd_ok {k : Kind} {mv : Bool} {h : Heap A} (w : Wf h) {p : Ptr} {l : List (Cell A)} (o : Owns h p l) (al : Alive k l)
    {s : Src A} {m : List (Cell A)} {n : Nat} (hn : n = m.length)
    (g : ∀ h1 q l1, Step h h1 p q l1 → Gives h1 q s m) (am : Alive k m) :
    ∃ q h', applyEnd k mv h p s n = .ok (q, h') ∧ Step h h' p q (l ++ m) := by
  subst hn
  obtain ⟨q, h1, e1, s1⟩ := sizeGrow_ok (mv := mv) w o al (n := l.length + m.length) (by omega)
  rw [Nat.add_sub_cancel_left] at s1
  have h3 := copyConstruct_ok (k := k) (m := m) s1.own (i := l.length) (by simp)
    (by simpa using dead_raws (k := k) (x := l) (z := []) (m := raws m.length) (n := m.length) rfl (by simp) (fun _ => rfl))
    (g _ _ _ s1) am
  have e : splice (l ++ List.replicate m.length (.raw : Cell A)) l.length m = l ++ m := by
    have := splice_mid (x := l) (y := raws m.length) (z := []) (y' := m) rfl (by simp)
    simpa using this
  rw [e] at h3
  exact ⟨_, _, by simp only [applyEnd, owns_sizeOf o, ok_bind, e1, h3, pure_ok], s1.over (by simp)⟩

theorem resize_ok {k : Kind} {d : A} {mv : Bool} {h : Heap A} (w : Wf h) {p : Ptr} {l : List (Cell A)} (o : Owns h p l) (al : Alive k l) (n : Nat) :
    ∃ q h' m, resize k d mv h p n = .ok (q, h') ∧ Fresh k d (n - l.length) m ∧ Step h h' p q (l.take n ++ m) := by
  unfold resize
  simp only [owns_sizeOf o, ok_bind]
  by_cases h1 : l.length = n
  · refine ⟨p, h, [], by simp [h1], ⟨by simp; omega, fun _ => by simp [h1]⟩, ?_⟩
    rw [List.take_of_length_le (by omega), List.append_nil]; exact Step.refl w o
  · rw [if_neg h1]
    by_cases h2 : n < l.length
    · rw [if_pos h2]
      have hd := destruct_ok (k := k) o (i := n) (n := l.length - n) (by omega) al
      simp only [hd, ok_bind, sizeCut]
      have len : (if k.managed then splice l n (List.replicate (l.length - n) .raw) else l).length = l.length := by
        split
        · rw [splice_length (by simp; omega)]
        · rfl
      have s1 := (Step.refl w o).over len
      obtain ⟨q, h', e, s2⟩ := realloc_cut (k := k) (mv := false) s1.wf s1.own (n := n) (by omega) (by
        intro hk c hc
        rw [if_pos hk] at hc
        unfold splice at hc
        rw [List.append_assoc, List.drop_append_of_le_length (by simp; omega), List.drop_of_length_le (l := l.take n) (by simp; omega),
          List.nil_append] at hc
        rcases List.mem_append.mp hc with hc | hc
        · rw [(List.mem_replicate.mp hc).2]; rfl
        · rw [List.drop_of_length_le (by simp; omega)] at hc; cases hc)
      refine ⟨q, h', [], e, ⟨by simp; omega, fun _ => by rw [Nat.sub_eq_zero_of_le (by omega)]; rfl⟩, ?_⟩
      have : (if k.managed then splice l n (List.replicate (l.length - n) .raw) else l).take n = l.take n ++ [] := by
        rw [List.append_nil]
        split
        · unfold splice
          rw [List.append_assoc, List.take_append_of_le_length (by simp; omega), List.take_take, Nat.min_self]
        · rfl
      rw [this] at s2
      refine ⟨s2.own, ?_, s2.gone, ?_, s2.wf⟩
      · intro b h1 h2; rw [s2.frame b h1 h2, s1.frame b h1 h1]
      · intro b h1
        rcases s2.new b h1 with h2 | h2
        · exact Or.inl h2
        · by_cases hb : p = some b
          · exact Or.inl hb
          · rw [s1.frame b hb hb] at h2; exact Or.inr h2
    · rw [if_neg h2]
      by_cases h3 : l.length ≠ 0
      · rw [if_pos h3]
        obtain ⟨q, h1, e1, s1⟩ := sizeGrow_ok (mv := mv) w o al (n := n) (by omega)
        obtain ⟨m, m1, m2, m3⟩ := construct_ok (k := k) (d := d) s1.own (i := l.length) (n := n - l.length) (by simp)
          (by simpa using dead_raws (k := k) (x := l) (z := []) (m := raws (n - l.length)) (n := n - l.length) rfl (by simp) (fun _ => rfl))
        have e : splice (l ++ List.replicate (n - l.length) (.raw : Cell A)) l.length m = l.take n ++ m := by
          have := splice_mid (x := l) (y := raws (n - l.length)) (z := []) (y' := m) rfl (by simpa using m1)
          rw [List.take_of_length_le (by omega)]
          simpa using this
        rw [e] at m3
        refine ⟨q, _, m, by simp only [e1, ok_bind, m3, pure_ok], ⟨m1, m2⟩, s1.over ?_⟩
        simp [m1]; omega
      · rw [if_neg h3]
        have : l = [] := List.length_eq_zero_iff.mp (by omega)
        subst this
        have hp : p = none := by
          cases p with
          | none => rfl
          | some b => exact absurd rfl o.2
        subst hp
        obtain ⟨q, h', m, e, f, s⟩ := getN_ok (k := k) (d := d) w n
        exact ⟨q, h', m, e, by simpa using f, by simpa using s⟩

theorem forwardResize_ok {k : Kind} {d : A} {mv : Bool} {h : Heap A} (w : Wf h) {p : Ptr} {l : List (Cell A)} (o : Owns h p l) (al : Alive k l)
    (n : Nat) : ∃ q h' m, forwardResize k d mv h p n = .ok (q, h') ∧ Fresh k d (n - l.length) m ∧
      Step h h' p q (m ++ l.drop (l.length - n)) := by
  unfold forwardResize
  simp only [owns_sizeOf o, ok_bind]
  by_cases h1 : l.length = n
  · refine ⟨p, h, [], by simp [h1], ⟨by simp; omega, fun _ => by simp [h1]⟩, ?_⟩
    rw [Nat.sub_eq_zero_of_le (by omega), List.drop_zero, List.nil_append]; exact Step.refl w o
  · rw [if_neg h1]
    by_cases h2 : n < l.length
    · rw [if_pos h2]
      have hd := destruct_ok (k := k) o (i := 0) (n := l.length - n) (by omega) al
      simp only [hd, ok_bind]
      have len : (if k.managed then splice l 0 (List.replicate (l.length - n) .raw) else l).length = l.length := by
        split
        · rw [splice_length (by simp)]
        · rfl
      have s1 := (Step.refl w o).over len
      obtain ⟨q, h', e, s2⟩ := forwardCut_ok (k := k) s1.wf s1.own (t := n) (by omega) (by
        intro hk m c hc
        rw [if_pos hk] at hc ⊢
        rw [splice_length (by simp)]
        rw [splice_get (by simp), if_neg (by omega)] at hc
        simp only [List.length_replicate, Nat.zero_add] at hc
        by_cases hm : m < l.length - n
        · rw [if_pos hm, List.getElem?_replicate] at hc
          split at hc
          · cases hc; simp [Cell.alive]; omega
          · cases hc
        · rw [if_neg hm] at hc
          rw [al hk c (List.mem_of_getElem? hc)]; simp; omega)
      refine ⟨q, h', [], e, ⟨by simp; omega, fun _ => by rw [Nat.sub_eq_zero_of_le (by omega)]; rfl⟩, ?_⟩
      rw [len] at s2
      have : (if k.managed then splice l 0 (List.replicate (l.length - n) .raw) else l).drop (l.length - n) = [] ++ l.drop (l.length - n) := by
        rw [List.nil_append]
        split
        · unfold splice
          rw [List.take_zero, List.nil_append, List.drop_append_of_le_length (by simp), List.drop_of_length_le (by simp), List.nil_append]
          simp
        · rfl
      rw [this] at s2
      refine ⟨s2.own, ?_, s2.gone, ?_, s2.wf⟩
      · intro b h1 h2; rw [s2.frame b h1 h2, s1.frame b h1 h1]
      · intro b h1
        rcases s2.new b h1 with h2 | h2
        · exact Or.inl h2
        · by_cases hb : p = some b
          · exact Or.inl hb
          · rw [s1.frame b hb hb] at h2; exact Or.inr h2
    · rw [if_neg h2]
      by_cases h3 : l.length ≠ 0
      · rw [if_pos h3]
        obtain ⟨q, h1, m0, e1, a1, a2, s1⟩ := forwardGrow_ok (mv := mv) w o al (t := n) (by omega)
        obtain ⟨m, m1, m2, m3⟩ := construct_ok (k := k) (d := d) s1.own (i := 0) (n := n - l.length) (by simp; omega)
          (by simpa using dead_raws (k := k) (x := []) (z := l) (m := m0) (n := n - l.length) rfl a1 a2)
        have e : splice (m0 ++ l) 0 m = m ++ l.drop (l.length - n) := by
          have := splice_mid (x := []) (y := m0) (z := l) (y' := m) (i := 0) rfl (by omega)
          rw [Nat.sub_eq_zero_of_le (by omega), List.drop_zero]
          simpa using this
        rw [e] at m3
        refine ⟨q, _, m, by simp only [e1, ok_bind, m3, pure_ok], ⟨m1, m2⟩, s1.over ?_⟩
        simp [m1, a1]; omega
      · rw [if_neg h3]
        have : l = [] := List.length_eq_zero_iff.mp (by omega)
        subst this
        have hp : p = none := by
          cases p with
          | none => rfl
          | some b => exact absurd rfl o.2
        subst hp
        obtain ⟨q, h', m, e, f, s⟩ := getN_ok (k := k) (d := d) w n
        exact ⟨q, h', m, e, by simpa using f, by simpa using s⟩

theorem inserted_nil {l : List (Cell A)} {pos : Nat} : inserted l pos [] = l := by simp [inserted]

theorem insert_ok {k : Kind} {d : A} {mv : Bool} {h : Heap A} (w : Wf h) {p : Ptr} {l : List (Cell A)} (o : Owns h p l) (al : Alive k l)
    {pos n : Nat} (hp : pos ≤ l.length) :
    ∃ q h' m, insert k d mv h p pos n = .ok (q, h') ∧ Fresh k d n m ∧ Step h h' p q (inserted l pos m) := by
  unfold insert
  by_cases hn : n = 0
  · subst hn
    refine ⟨p, h, [], rfl, ⟨rfl, fun _ => rfl⟩, ?_⟩
    rw [inserted_nil]; exact Step.refl w o
  · rw [if_pos hn]
    simp only [owns_sizeOf o, ok_bind]
    obtain ⟨q, h1, m0, e1, a1, a2, s1⟩ := growInsert_ok (mv := mv) w o al (t := l.length + n) (n := n) hp (by omega)
    rw [Nat.sub_self, show (raws 0 : List (Cell A)) = [] from rfl, List.append_nil] at s1
    obtain ⟨m, m1, m2, m3⟩ := construct_ok (k := k) (d := d) s1.own (i := pos) (n := n) (by simp; omega)
      (dead_raws (by simp; omega) a1 a2)
    rw [splice_mid (by simp; omega) (by omega)] at m3
    exact ⟨q, h1.over q (inserted l pos m), m, by simp only [e1, ok_bind, m3, pure_ok, inserted], ⟨m1, m2⟩, s1.over (by simp [inserted]; omega)⟩

theorem insertFill_ok {k : Kind} {mv : Bool} {h : Heap A} (w : Wf h) {p : Ptr} {l : List (Cell A)} (o : Owns h p l) (al : Alive k l)
    {pos n : Nat} (hp : pos ≤ l.length) {s : Src A} {c : Cell A} (g : ∀ h1 q l1, Step h h1 p q l1 → Gives h1 q s [c]) (hc : c.alive = true) :
    ∃ q h', insertFill k mv h p pos n s = .ok (q, h') ∧ Step h h' p q (inserted l pos (List.replicate n c)) := by
  unfold insertFill
  by_cases hn : n = 0
  · subst hn
    refine ⟨p, h, rfl, ?_⟩
    rw [List.replicate_zero, inserted_nil]; exact Step.refl w o
  · rw [if_pos hn]
    simp only [owns_sizeOf o, ok_bind]
    obtain ⟨q, h1, m0, e1, a1, a2, s1⟩ := growInsert_ok (mv := mv) w o al (t := l.length + n) (n := n) hp (by omega)
    rw [Nat.sub_self, show (raws 0 : List (Cell A)) = [] from rfl, List.append_nil] at s1
    have m3 := fill_ok (k := k) s1.own (i := pos) (n := n) (by simp; omega) (dead_raws (by simp; omega) a1 a2) (g _ _ _ s1) hc
    rw [splice_mid (by simp; omega) (by simp [a1])] at m3
    exact ⟨q, _, by simp only [e1, ok_bind, m3, pure_ok]; rfl, s1.over (by simp [inserted]; omega)⟩

theorem insertData_ok {k : Kind} {mv : Bool} {h : Heap A} (w : Wf h) {p : Ptr} {l : List (Cell A)} (o : Owns h p l) (al : Alive k l)
    {pos n : Nat} (hp : pos ≤ l.length) {s : Src A} {m : List (Cell A)} (hn : n = m.length)
    (g : ∀ h1 q l1, Step h h1 p q l1 → Gives h1 q s m) (am : Alive k m) :
    ∃ q h', insertData k mv h p pos n s = .ok (q, h') ∧ Step h h' p q (inserted l pos m) := by
  unfold insertData
  by_cases h0 : n = 0
  · have : m = [] := List.length_eq_zero_iff.mp (by omega)
    subst this
    refine ⟨p, h, by simp [h0], ?_⟩
    rw [inserted_nil]; exact Step.refl w o
  · subst hn
    rw [if_pos h0]
    simp only [owns_sizeOf o, ok_bind]
    obtain ⟨q, h1, m0, e1, a1, a2, s1⟩ := growInsert_ok (mv := mv) w o al (t := l.length + m.length) (n := m.length) hp (by omega)
    rw [Nat.sub_self, show (raws 0 : List (Cell A)) = [] from rfl, List.append_nil] at s1
    have m3 := copyConstruct_ok (k := k) (m := m) s1.own (i := pos) (by simp; omega) (dead_raws (by simp; omega) a1 a2) (g _ _ _ s1) am
    rw [splice_mid (by simp; omega) a1.symm] at m3
    exact ⟨q, _, by simp only [e1, ok_bind, m3, pure_ok]; rfl, s1.over (by simp [inserted]; omega)⟩

theorem insertResize_ok {k : Kind} {d : A} {mv : Bool} {h : Heap A} (w : Wf h) {p : Ptr} {l : List (Cell A)} (o : Owns h p l) (al : Alive k l)
    {pos n t : Nat} (hp : pos ≤ l.length) {s : Src A} {m : List (Cell A)} (hn : n = m.length) (ht : l.length + n ≤ t)
    (g : ∀ h1 q l1, Step h h1 p q l1 → Gives h1 q s m) (am : Alive k m) :
    ∃ q h' f, insertResize k d mv h p pos n s t = .ok (q, h') ∧ Fresh k d (t - (l.length + n)) f ∧ Step h h' p q (inserted l pos m ++ f) := by
  subst hn
  unfold insertResize
  simp only [owns_sizeOf o, ok_bind]
  obtain ⟨q, h1, m0, e1, a1, a2, s1⟩ := growInsert_ok (mv := mv) w o al (t := t) (n := m.length) hp ht
  have m3 := copyConstruct_ok (k := k) (m := m) s1.own (i := pos) (by simp; omega) (dead_raws (by simp; omega) a1 a2) (g _ _ _ s1) am
  rw [splice_mid (by simp; omega) a1.symm] at m3
  have s2 := s1.over (l2 := l.take pos ++ m ++ (l.drop pos ++ raws (t - (l.length + m.length)))) (by simp; omega)
  have hm : minus t (l.length + m.length) = .ok (t - (l.length + m.length)) := by simp [minus, ht]
  have il : (inserted l pos m).length = l.length + m.length := by simp [inserted]; omega
  rw [← List.append_assoc] at s2 m3
  rw [show l.take pos ++ m ++ l.drop pos = inserted l pos m from rfl] at s2 m3
  have hd := dead_raws (k := k) (x := inserted l pos m) (z := []) (m := raws (t - (l.length + m.length)))
    (n := t - (l.length + m.length)) (i := t - (t - (l.length + m.length))) (by rw [il]; omega) (by simp) (fun _ => rfl)
  rw [List.append_nil] at hd
  obtain ⟨f, f1, f2, f3⟩ := construct_ok (k := k) (d := d) s2.own (i := t - (t - (l.length + m.length))) (n := t - (l.length + m.length))
    (by simp [il]; omega) hd
  have e : splice (inserted l pos m ++ raws (t - (l.length + m.length))) (t - (t - (l.length + m.length))) f = inserted l pos m ++ f := by
    have := splice_mid (x := inserted l pos m) (y := raws (t - (l.length + m.length))) (z := []) (y' := f)
      (i := t - (t - (l.length + m.length))) (by omega) (by simpa using f1)
    simpa using this
  rw [e] at f3
  exact ⟨q, _, f, by simp only [e1, ok_bind, m3, hm, f3, pure_ok], ⟨f1, f2⟩, s2.over (by simp [f1])⟩

theorem forwardInsertResize_ok {k : Kind} {d : A} {mv : Bool} {h : Heap A} (w : Wf h) {p : Ptr} {l : List (Cell A)} (o : Owns h p l)
    (al : Alive k l) {pos n t : Nat} (hp : pos ≤ l.length) {s : Src A} {m : List (Cell A)} (hn : n = m.length) (h0 : n ≠ 0)
    (ht : l.length + n ≤ t) (g : ∀ h1 q l1, Step h h1 p q l1 → Gives h1 q s m) (am : Alive k m) :
    ∃ q h' f, forwardInsertResize k d mv h p pos n s t = .ok (q, h') ∧ Fresh k d (t - (l.length + n)) f ∧
      Step h h' p q (f ++ inserted l pos m) := by
  subst hn
  unfold forwardInsertResize
  rw [if_pos h0]
  simp only [owns_sizeOf o, ok_bind]
  obtain ⟨q, h1, f0, m0, e1, b1, b2, a1, a2, s1⟩ := forwardGrowInsert_ok (mv := mv) w o al (t := t) (n := m.length) hp ht
  have hb : t - l.length - m.length = t - (l.length + m.length) := by omega
  rw [hb] at b1 b2
  rw [← List.append_assoc, ← List.append_assoc] at s1
  have m3 := copyConstruct_ok (k := k) (m := m) s1.own (i := t - l.length - m.length + pos) (by simp; omega)
    (dead_raws (by simp; omega) a1 a2) (g _ _ _ s1) am
  rw [splice_mid (by simp; omega) a1.symm] at m3
  have s2 := s1.over (l2 := f0 ++ l.take pos ++ m ++ l.drop pos) (by simp; omega)
  have e2 : f0 ++ l.take pos ++ m ++ l.drop pos = [] ++ f0 ++ inserted l pos m := by simp [inserted]
  rw [e2] at s2 m3
  have il : (inserted l pos m).length = l.length + m.length := by simp [inserted]; omega
  obtain ⟨f, f1, f2, f3⟩ := construct_ok (k := k) (d := d) s2.own (i := 0) (n := t - l.length - m.length) (by simp [il]; omega)
    (by rw [hb]; exact dead_raws rfl b1 b2)
  rw [splice_mid (x := []) (i := 0) rfl (by omega), List.nil_append f] at f3
  exact ⟨q, _, f, by simp only [e1, ok_bind, m3, f3, pure_ok], ⟨by omega, fun hk => by rw [f2 hk, hb]⟩, s2.over (by simp; omega)⟩

theorem copyGet_ok {k : Kind} {h : Heap A} (w : Wf h) {p : Ptr} {l : List (Cell A)} (o : Owns h p l) (al : Alive k l) :
    ∃ q h', copyGet k h p = .ok (q, h') ∧ Step h h' none q l := by
  obtain ⟨q, h', e, s⟩ := asArray_ok (k := k) w (s := .at_ p 0) (m := l) (n := l.length) rfl (fun h1 q st => by
    obtain ⟨o', a'⟩ := st.other o (fun _ _ => by simp)
    have := gives_at o' a' (j := 0) (n := l.length) (by omega)
    rwa [List.drop_zero, List.take_length] at this) al
  refine ⟨q, h', ?_, s⟩
  simp only [copyGet, owns_sizeOf o, ok_bind]
  exact e

end ELC.Arr
