import Verif.Arr.Self
/-! Blocks that are used as a whole, through the functions for blocks used in part. -/
namespace ELC.Arr

open Spec

variable {A : Type}

theorem partGrowInsert_ok {k : Kind} {mv : Bool} {h : Heap A} (w : Wf h) {p : Ptr} {l : List (Cell A)} (o : Owns h p l) (al : Alive k l)
    {t pos n : Nat} (hp : pos ≤ l.length) (ht : l.length + n ≤ t) :
    ∃ q h' m, partGrowInsert k mv h p t pos n l.length = .ok (q, h') ∧ m.length = n ∧ (k.managed = true → m = raws n) ∧
      Step h h' p q (l.take pos ++ m ++ (l.drop pos ++ raws (t - (l.length + n)))) := by
  have hm : minus l.length pos = .ok (l.length - pos) := by simp [minus, hp]
  by_cases hk : k.managed = true
  · have l2 : (l.drop pos).length = l.length - pos := by simp
    have e : partGrowInsert k mv h p t pos n l.length = reloc2 k h p t (pos + n) pos (l.length - pos) 0 0 pos := by
      simp only [partGrowInsert, ok_bind, hm, hk, if_true, reloc2]
    obtain ⟨q, h', e', s⟩ := reloc2_ok hk w o (n := t) (i₂ := 0) (j₂ := 0) (n₂ := pos) (i₁ := pos + n) (j₁ := pos) (n₁ := l.length - pos)
      (by omega) (by omega) (by omega) (by omega) (by omega) (by omega)
      (fun m c hc => ⟨fun _ => by have := lt_of_get hc; omega, fun _ => al hk c (List.mem_of_getElem? hc)⟩)
    refine ⟨q, h', raws n, by rw [e, e'], by simp, fun _ => rfl, ?_⟩
    rw [List.drop_zero, List.take_of_length_le (l := l.drop pos) (by omega)] at s
    have : (raws t : List (Cell A)) = raws (pos + n) ++ raws (l.length - pos) ++ raws (t - (l.length + n)) := by
      rw [← raws_add, ← raws_add]; congr 1; omega
    rw [show (List.replicate t (.raw : Cell A)) = raws t from rfl, this, splice_mid (by simp) (by simp),
      raws_add, List.append_assoc (raws pos ++ raws n), List.append_assoc (raws pos)] at s
    have e2 := splice_mid (x := ([] : List (Cell A))) (y := raws pos) (z := raws n ++ (l.drop pos ++ raws (t - (l.length + n))))
      (y' := l.take pos) (i := 0) (by simp) (by simp; omega)
    rw [List.nil_append, List.nil_append] at e2
    rw [e2, ← List.append_assoc] at s
    exact s
  · obtain ⟨q, h', m, e, r⟩ := growInsert_ok (mv := mv) w o al (t := t) (n := n) hp ht
    refine ⟨q, h', m, ?_, r⟩
    rw [← e]
    simp only [partGrowInsert, growInsert, owns_sizeOf o, ok_bind, hm, hk, Bool.false_eq_true, if_false]

theorem partForwardGrowInsert_ok {k : Kind} {mv : Bool} {h : Heap A} (w : Wf h) {p : Ptr} {l : List (Cell A)} (o : Owns h p l)
    (hk : k.managed = true) (al : Alive k l) {t pos n : Nat} (hp : pos ≤ l.length) (ht : l.length + n ≤ t) :
    ∃ q h', partForwardGrowInsert k mv h p t pos n l.length = .ok (q, h') ∧
      Step h h' p q (raws (t - (l.length + n)) ++ (l.take pos ++ raws n ++ l.drop pos)) := by
  have m1 : minus t (l.length + n) = .ok (t - (l.length + n)) := by simp [minus, ht]
  have m2 : minus l.length l.length = .ok 0 := by simp [minus]
  have m3 : minus l.length pos = .ok (l.length - pos) := by simp [minus, hp]
  have m4 : minus pos 0 = .ok pos := by simp [minus]
  generalize hu : t - (l.length + n) = u at *
  have l2 : (l.drop pos).length = l.length - pos := by simp
  have e : partForwardGrowInsert k mv h p t pos n l.length = reloc2 k h p t (u + pos + n) pos (l.length - pos) u 0 pos := by
    simp only [partForwardGrowInsert, owns_sizeOf o, ok_bind, m1, m2, m3, m4, hk, if_true, reloc2, Nat.zero_add]
  obtain ⟨q, h', e', s⟩ := reloc2_ok hk w o (n := t) (i₂ := u) (j₂ := 0) (n₂ := pos) (i₁ := u + pos + n) (j₁ := pos) (n₁ := l.length - pos)
    (by omega) (by omega) (by omega) (by omega) (by omega) (by omega)
    (fun m c hc => ⟨fun _ => by have := lt_of_get hc; omega, fun _ => al hk c (List.mem_of_getElem? hc)⟩)
  refine ⟨q, h', by rw [e, e'], ?_⟩
  rw [List.drop_zero, List.take_of_length_le (l := l.drop pos) (by omega)] at s
  have : (raws t : List (Cell A)) = raws (u + pos + n) ++ raws (l.length - pos) ++ [] := by
    rw [← raws_add, List.append_nil]; congr 1; omega
  rw [show (List.replicate t (.raw : Cell A)) = raws t from rfl, this, splice_mid (by simp) (by simp),
    raws_add, raws_add, List.append_nil, List.append_assoc (raws u ++ raws pos),
    splice_mid (by simp) (by simp; omega), List.append_assoc, ← List.append_assoc (l.take pos)] at s
  exact s

theorem partInsertResize_whole {k : Kind} {d : A} {mv : Bool} {h : Heap A} (w : Wf h) {p : Ptr} {l : List (Cell A)} (o : Owns h p l)
    (al : Alive k l) {pos t : Nat} {vs : List A} (hp : pos ≤ l.length)
    (ht : t = l.length + vs.length ∨ t = 2 * l.length + vs.length) :
    ∃ q h' f, partInsertResize k d mv h p pos vs.length (.out vs) t l.length = .ok (q, h') ∧
      Fresh k d (t - (l.length + vs.length)) f ∧ Step h h' p q (inserted l pos (vs.map .live) ++ f) := by
  obtain ⟨q, h1, m0, e1, a1, a2, s1⟩ := partGrowInsert_ok (mv := mv) w o al (t := t) (n := vs.length) hp (by omega)
  have m3 := copyConstruct_ok (k := k) (m := vs.map .live) s1.own (i := pos) (by simp; omega)
    (dead_raws (by simp; omega) (by simpa using a1) (by simpa using a2)) (gives_out vs) (Alive.live k vs)
  rw [splice_mid (by simp; omega) (by simpa using a1.symm), List.length_map] at m3
  have s2 := s1.over (l2 := l.take pos ++ vs.map .live ++ (l.drop pos ++ raws (t - (l.length + vs.length)))) (by simp; omega)
  have il : (inserted l pos (vs.map .live)).length = l.length + vs.length := by simp [inserted]; omega
  rw [← List.append_assoc, show l.take pos ++ vs.map .live ++ l.drop pos = inserted l pos (vs.map .live) from rfl] at s2 m3
  by_cases hpl : k = .plain
  · refine ⟨q, _, raws (t - (l.length + vs.length)), ?_, ⟨by simp, fun h => absurd hpl h⟩, s2⟩
    simp only [partInsertResize, owns_sizeOf o, ok_bind, e1, m3, if_pos hpl, pure_ok]
  · have mm1 : minus t l.length = .ok (t - l.length) := by rw [minus, if_pos (by omega)]
    have mm2 : minus t (l.length + vs.length) = .ok (t - (l.length + vs.length)) := by rw [minus, if_pos (by omega)]
    have hd : Dead k (inserted l pos (vs.map .live) ++ raws (t - (l.length + vs.length))) (t - l.length) (t - (l.length + vs.length)) := by
      rcases ht with ht | ht
      · intro _ j h1 h2; omega
      · have := dead_raws (k := k) (x := inserted l pos (vs.map .live)) (z := []) (m := raws (t - (l.length + vs.length)))
          (n := t - (l.length + vs.length)) (i := t - l.length) (by rw [il]; omega) (by simp) (fun _ => rfl)
        rwa [List.append_nil] at this
    obtain ⟨f, f1, f2, f3⟩ := construct_ok (k := k) (d := d) s2.own (i := t - l.length) (n := t - (l.length + vs.length))
      (by rw [List.length_append, il]; simp; omega) hd
    have e : splice (inserted l pos (vs.map .live) ++ raws (t - (l.length + vs.length))) (t - l.length) f
        = inserted l pos (vs.map .live) ++ f := by
      rcases ht with ht | ht
      · have f0 : f = [] := List.length_eq_zero_iff.mp (by omega)
        rw [f0, splice_nil]
        have : t - (l.length + vs.length) = 0 := by omega
        rw [this]; rfl
      · have := splice_mid (x := inserted l pos (vs.map .live)) (y := raws (t - (l.length + vs.length))) (z := []) (y' := f)
          (i := t - l.length) (by omega) (by simpa using f1)
        simpa using this
    rw [e] at f3
    refine ⟨q, _, f, ?_, ⟨f1, f2⟩, s2.over (by simp [f1])⟩
    simp only [partInsertResize, owns_sizeOf o, ok_bind, e1, m3, if_neg hpl, mm1, mm2, f3, pure_ok]

/-- What insertion leaves of a block of which only the first `used` elements count, with elements that have no destructor but a
default value: those are made at `t - used`. -/
def initInserted (d : A) (l : List (Cell A)) (pos used t : Nat) (vs : List A) : List (Cell A) :=
  splice (inserted (l.take used) pos (vs.map .live) ++ (l ++ raws (t - l.length)).drop (used + vs.length)) (t - used)
    (List.replicate (t - (l.length + vs.length)) (.live d))

theorem makeLoop_bounds {d : A} {b : Nat} : ∀ (n : Nat) {h : Heap A} {i : Nat} {l : List (Cell A)}, h.blocks b = some l → 0 < n →
    l.length < i + n → makeLoop .init (some b) i (.live d) n h = .error .bounds := by
  intro n h i l e hn hl
  obtain ⟨n, rfl⟩ : ∃ k, n = k + 1 := ⟨n - 1, by omega⟩
  have : l[i + n]? = none := by rw [List.getElem?_eq_none_iff]; omega
  simp [makeLoop, make, Heap.read, Heap.cells, e, this]

theorem partInsertResize_init {d : A} {mv : Bool} {h : Heap A} (w : Wf h) {p : Ptr} {l : List (Cell A)} (o : Owns h p l)
    {pos used t : Nat} {vs : List A} (hp : pos ≤ used) (hu : used ≤ l.length) (ht : l.length + vs.length ≤ t) :
    (t ≤ l.length + used + vs.length → ∃ q h', partInsertResize .init d mv h p pos vs.length (.out vs) t used = .ok (q, h') ∧
      Step h h' p q (initInserted d l pos used t vs)) ∧
    (l.length + used + vs.length < t → partInsertResize .init d mv h p pos vs.length (.out vs) t used = .error .bounds) := by
  obtain ⟨q, h1, e1, s1⟩ := realloc_grow (k := .init) (mv := mv) w o (n := t) (by omega)
  generalize hL : l ++ List.replicate (t - l.length) (.raw : Cell A) = L at s1
  have hlen : L.length = t := by rw [← hL]; simp; omega
  have hm : minus used pos = .ok (used - pos) := by simp [minus, hp]
  have mm := memmove_ok s1.own (i := pos + vs.length) (j := pos) (n := used - pos) (by omega) (by omega)
  have d1 : (L.drop pos).take (used - pos) = (l.take used).drop pos := by
    rw [← hL, List.drop_append_of_le_length (by omega), List.take_append_of_le_length (by simp; omega), List.drop_take]
  rw [d1] at mm
  have l1 : ((l.take used).drop pos).length = used - pos := by simp; omega
  have s2 := s1.over (l2 := splice L (pos + vs.length) ((l.take used).drop pos)) (by rw [splice_length]; omega)
  have e2 : splice L (pos + vs.length) ((l.take used).drop pos)
      = (l.take used).take pos ++ (L.drop pos).take vs.length ++ ((l.take used).drop pos ++ L.drop (used + vs.length)) := by
    unfold splice
    rw [List.take_add, l1, List.append_assoc _ ((l.take used).drop pos), show pos + vs.length + (used - pos) = used + vs.length by omega]
    congr 2
    rw [← hL, List.take_append_of_le_length (by omega), List.take_take, Nat.min_eq_left hp]
  rw [e2] at s2 mm
  have m3 := copyConstruct_ok (k := .init) (m := vs.map .live) s2.own (i := pos) (by simp; omega) (fun h => by cases h) (gives_out vs)
    (fun h => by cases h)
  rw [splice_mid (by simp; omega) (by simp; omega), List.length_map] at m3
  have s3 := s2.over (l2 := inserted (l.take used) pos (vs.map .live) ++ L.drop (used + vs.length)) (by
    simp [inserted]; omega)
  rw [over_over] at m3 s3
  have len3 : (inserted (l.take used) pos (vs.map Cell.live) ++ L.drop (used + vs.length)).length = t := by simp [inserted]; omega
  have h4 : (Kind.managed .init) = false := rfl
  have mm1 : minus t used = .ok (t - used) := by rw [minus, if_pos (by omega)]
  have mm2 : minus t (l.length + vs.length) = .ok (t - (l.length + vs.length)) := by rw [minus, if_pos (by omega)]
  have e : partInsertResize .init d mv h p pos vs.length (.out vs) t used =
      ((construct .init d (h1.over q (inserted (l.take used) pos (vs.map .live) ++ L.drop (used + vs.length))) q (t - used)
        (t - (l.length + vs.length))) >>= fun h' => pure (q, h')) := by
    simp only [partInsertResize, partGrowInsert, owns_sizeOf o, ok_bind, hm, h4, Bool.false_eq_true, if_false, e1, mm, m3, pure_ok,
      reduceCtorEq, mm1, mm2]
    simp only [inserted, List.append_assoc]
  constructor
  · intro hb
    obtain ⟨f, f1, f2, f3⟩ := construct_ok (k := .init) (d := d) s3.own (i := t - used) (n := t - (l.length + vs.length))
      (by rw [len3]; omega) (fun h => by cases h)
    rw [f2 (by decide)] at f3
    have s4 := s3.over (l2 := initInserted d l pos used t vs) (by
      rw [initInserted, show raws (t - l.length) = List.replicate (t - l.length) (.raw : Cell A) from rfl, hL, splice_length]
      rw [len3]; simp; omega)
    refine ⟨q, _, ?_, s4⟩
    rw [e, f3, ok_bind, pure_ok]
    simp only [initInserted, show raws (t - l.length) = List.replicate (t - l.length) (.raw : Cell A) from rfl, hL]
  · intro hb
    rw [e]
    have own := s3.own
    cases q with
    | none =>
      have : inserted (l.take used) pos (vs.map .live) ++ L.drop (used + vs.length) = [] := own
      rw [this] at len3; simp at len3; omega
    | some b =>
      have := makeLoop_bounds (d := d) (t - (l.length + vs.length)) (i := t - used) own.1 (by omega) (by rw [len3]; omega)
      simp only [construct, this]
      rfl

theorem construct_over {d : A} {h : Heap A} {b i n : Nat} {l : List (Cell A)} (e : h.blocks b = some l) {c : Cell A}
    (hc : l[i + n]? = some c) (ha : c.alive = true) : construct .object d h (some b) i (n + 1) = .error .overLive := by
  have hr := read_ok e hc
  simp only [construct, makeLoop, make, hr, Kind.managed, ha, Bool.and_self, if_true]

theorem partForwardInsertResize_fails {d : A} {mv : Bool} {h : Heap A} (w : Wf h) {p : Ptr} {l : List (Cell A)} (o : Owns h p l)
    (al : Alive .object l) {pos t : Nat} {vs : List A} (hv : vs ≠ []) (hl : l ≠ []) (hp : pos ≤ l.length) (ht : l.length + vs.length ≤ t) :
    partForwardInsertResize .object d mv h p pos vs.length (.out vs) t l.length = .error .overLive := by
  have h0 : vs.length ≠ 0 := fun h => hv (List.length_eq_zero_iff.mp h)
  have hl0 : l.length ≠ 0 := fun h => hl (List.length_eq_zero_iff.mp h)
  obtain ⟨q, h1, e1, s1⟩ := partForwardGrowInsert_ok (k := .object) (mv := mv) w o rfl al (n := vs.length) hp ht
  generalize hu : t - (l.length + vs.length) = u at *
  rw [← List.append_assoc, ← List.append_assoc] at s1
  have m3 := copyConstruct_ok (k := .object) (m := vs.map Cell.live) s1.own (i := u + pos) (by simp; omega)
    (dead_raws (by simp; omega) (by simp) (by simp)) (gives_out vs) (Alive.live .object vs)
  rw [splice_mid (by simp; omega) (by simp), List.length_map] at m3
  have s2 := s1.over (l2 := raws u ++ l.take pos ++ vs.map Cell.live ++ l.drop pos) (by simp)
  have mm1 : minus t l.length = .ok (t - l.length) := by rw [minus, if_pos (by omega)]
  have mm2 : minus (t - l.length + l.length) vs.length = .ok (t - vs.length) := by
    rw [minus, if_pos (by omega)]; congr 1; omega
  obtain ⟨n, hn⟩ : ∃ n, t - vs.length = n + 1 := ⟨t - vs.length - 1, by omega⟩
  have e3 : construct .object d (h1.over q (raws u ++ l.take pos ++ vs.map Cell.live ++ l.drop pos)) q 0 (n + 1) = .error .overLive := by
    have own := s2.own
    have lt : n < (raws u ++ l.take pos ++ vs.map Cell.live ++ l.drop pos).length := by simp; omega
    have ha : ((raws u ++ l.take pos ++ vs.map Cell.live ++ l.drop pos)[n]'lt).alive = true := by
      have am : Alive .object (l.take pos ++ vs.map Cell.live ++ l.drop pos) :=
        (al.inserted (Alive.live .object vs) pos)
      have hmem : (raws u ++ l.take pos ++ vs.map Cell.live ++ l.drop pos)[n]'lt ∈ l.take pos ++ vs.map Cell.live ++ l.drop pos := by
        have : (raws u ++ l.take pos ++ vs.map Cell.live ++ l.drop pos)[n]? = (l.take pos ++ vs.map Cell.live ++ l.drop pos)[n - u]? := by
          rw [List.append_assoc, List.append_assoc, List.getElem?_append_right (by simp; omega)]
          simp
        exact List.mem_of_getElem? (i := n - u) (by rw [← this]; exact List.getElem?_eq_getElem lt)
      exact am rfl _ hmem
    cases q with
    | none =>
      have : raws u ++ l.take pos ++ vs.map Cell.live ++ l.drop pos = [] := own
      rw [this] at lt; simp at lt
    | some b => exact construct_over own.1 (by rw [Nat.zero_add]; exact List.getElem?_eq_getElem lt) ha
  have i0 : u + (pos - (l.length - l.length)) = u + pos := by omega
  simp only [partForwardInsertResize, ne_eq, h0, not_false_eq_true, if_true, owns_sizeOf o, ok_bind, e1, hu, i0, m3, reduceCtorEq,
    if_false, mm1, mm2, hn, e3]
  rfl

end ELC.Arr
