import Verif.Arr.Lemmas
/-! What each block operation does to memory as a whole. -/
namespace ELC.Arr

open Spec

variable {A : Type}

/-- `p` is the block that holds `l`. -/
def Owns (h : Heap A) (p : Ptr) (l : List (Cell A)) : Prop :=
  match p with
  | none => l = []
  | some b => h.blocks b = some l ∧ l ≠ []

/-- The block's cells replaced. -/
def Heap.over (h : Heap A) (p : Ptr) (l : List (Cell A)) : Heap A :=
  match p with
  | none => h
  | some b => h.put b (some l)

/-- The block given back. -/
def Heap.dropped (h : Heap A) (p : Ptr) : Heap A :=
  match p with
  | none => h
  | some b => h.put b none

/-- No block has the next name or a later one. -/
def Wf (h : Heap A) : Prop := ∀ b, h.next ≤ b → h.blocks b = none

/-- From `h` to `h'` the block `p` became `p'`, which holds `l'`; nothing else changed. -/
structure Step (h h' : Heap A) (p p' : Ptr) (l' : List (Cell A)) : Prop where
  own : Owns h' p' l'
  frame : ∀ b, p ≠ some b → p' ≠ some b → h'.blocks b = h.blocks b
  gone : ∀ b, p = some b → p' ≠ some b → h'.blocks b = none
  new : ∀ b, p' = some b → p = some b ∨ h.blocks b = none
  wf : Wf h'

theorem lt_of_get {B : Type} {l : List B} {i : Nat} {c : B} (h : l[i]? = some c) : i < l.length := by
  rcases Nat.lt_or_ge i l.length with g | g
  · exact g
  · rw [List.getElem?_eq_none g] at h; cases h

theorem length_zero_of_none {h : Heap A} {l : List (Cell A)} (o : Owns h none l) : l = [] := o

theorem owns_sizeOf {h : Heap A} {p : Ptr} {l : List (Cell A)} (o : Owns h p l) : sizeOf h p = .ok l.length := by
  cases p with
  | none => cases o; rfl
  | some b => simp [sizeOf, o.1]

theorem wf_ne {h : Heap A} (w : Wf h) {b : Nat} {c : List (Cell A)} (e : h.blocks b = some c) : b ≠ h.next := by
  intro hb; subst hb; rw [w _ (Nat.le_refl _)] at e; cases e

theorem Step.refl {h : Heap A} (w : Wf h) {p : Ptr} {l : List (Cell A)} (o : Owns h p l) : Step h h p p l :=
  ⟨o, fun _ _ _ => rfl, fun _ h1 h2 => absurd h1 h2, fun _ h1 => Or.inl h1, w⟩

theorem Step.over {h h1 : Heap A} {p q : Ptr} {l1 l2 : List (Cell A)} (s : Step h h1 p q l1) (hl : l2.length = l1.length) :
    Step h (h1.over q l2) p q l2 := by
  cases q with
  | none =>
    have : l1 = [] := s.own
    subst this
    have : l2 = [] := List.length_eq_zero_iff.mp hl
    subst this
    exact s
  | some b =>
    obtain ⟨⟨o1, o2⟩, fr, go, ne, wf⟩ := s
    refine ⟨⟨put_blocks_self .., ?_⟩, ?_, ?_, ne, ?_⟩
    · intro h2; subst h2; exact o2 (List.length_eq_zero_iff.mp hl.symm)
    · intro b' h2 h3
      have : b' ≠ b := fun h => h3 (h ▸ rfl)
      simp only [Heap.over]; rw [put_blocks_ne _ this]; exact fr b' h2 h3
    · intro b' h2 h3
      have : b' ≠ b := fun h => h3 (h ▸ rfl)
      simp only [Heap.over]; rw [put_blocks_ne _ this]; exact go b' h2 h3
    · intro b' h2
      have hb : b' ≠ b := by
        intro h; subst h; rw [wf _ h2] at o1; cases o1
      simp only [Heap.over]; rw [put_blocks_ne _ hb]; exact wf _ h2

theorem over_owns {h : Heap A} {q : Ptr} {l l2 : List (Cell A)} (o : Owns h q l) (hl : l2.length = l.length) : Owns (h.over q l2) q l2 := by
  cases q with
  | none => cases o; exact List.length_eq_zero_iff.mp hl
  | some b => exact ⟨put_blocks_self .., fun h2 => o.2 (List.length_eq_zero_iff.mp (by rw [← hl, h2]; rfl))⟩

theorem over_over {h : Heap A} {q : Ptr} {l l2 : List (Cell A)} : (h.over q l).over q l2 = h.over q l2 := by
  cases q with
  | none => rfl
  | some b => exact put_put ..

theorem over_same {h : Heap A} {q : Ptr} {l : List (Cell A)} (o : Owns h q l) : h.over q l = h := by
  cases q with
  | none => rfl
  | some b => exact put_same o.1

/-! ## Inside a block -/

theorem memmove_ok {h : Heap A} {q : Ptr} {l : List (Cell A)} (o : Owns h q l) {i j n : Nat} (hi : i + n ≤ l.length) (hj : j + n ≤ l.length) :
    memmove h q i q j n = .ok (h.over q (splice l i ((l.drop j).take n))) := by
  cases q with
  | none =>
    cases o
    have : n = 0 := by simp at hi; omega
    subst this
    simp [memmove, Heap.readRange, Heap.writeRange, Heap.over]
  | some b =>
    unfold memmove
    rw [readRange_ok o.1 hj]
    exact writeRange_ok o.1 (by simp; omega)

theorem construct_ok {k : Kind} {d : A} {h : Heap A} {q : Ptr} {l : List (Cell A)} (o : Owns h q l) {i n : Nat} (hi : i + n ≤ l.length)
    (hd : Dead k l i n) : ∃ m, m.length = n ∧ (k ≠ .plain → m = List.replicate n (.live d)) ∧
      construct k d h q i n = .ok (h.over q (splice l i m)) := by
  by_cases hk : k = .plain
  · subst hk
    refine ⟨(l.drop i).take n, by simp; omega, fun h => absurd rfl h, ?_⟩
    have : splice l i ((l.drop i).take n) = l := by
      have hlen : ((l.drop i).take n).length = n := by simp; omega
      rw [splice, hlen, List.append_assoc, ← List.drop_drop, List.take_append_drop, List.take_append_drop]
    rw [this, over_same o]; rfl
  · refine ⟨List.replicate n (.live d), by simp, fun _ => rfl, ?_⟩
    have e : construct k d h q i n = makeLoop k q i (.live d) n h := by cases k <;> first | rfl | exact absurd rfl hk
    rw [e]
    cases q with
    | none =>
      cases o
      have : n = 0 := by simp at hi; omega
      subst this; rfl
    | some b => exact makeLoop_ok n o.1 hi hd

theorem copyConstruct_ok {k : Kind} {h : Heap A} {q : Ptr} {l m : List (Cell A)} {s : Src A} (o : Owns h q l) {i : Nat}
    (hi : i + m.length ≤ l.length) (hd : Dead k l i m.length) (g : Gives h q s m) (al : k.managed = true → ∀ c ∈ m, c.alive = true) :
    copyConstruct k h q i s m.length = .ok (h.over q (splice l i m)) := by
  cases q with
  | none =>
    cases o
    have : m = [] := by simp at hi; exact List.length_eq_zero_iff.mp (by simpa using hi.2)
    subst this
    have hr := g.range h (fun _ _ => rfl)
    have ha := g.apart i
    unfold copyConstruct
    by_cases hk : k.managed = true
    · simp [hk, copyLoop, Heap.over]
    · simp only [hk, Bool.false_eq_true, if_false, ha, hr]
      simp [Heap.writeRange, Heap.over]
  | some b =>
    unfold copyConstruct
    by_cases hk : k.managed = true
    · rw [if_pos hk]
      exact copyLoop_ok m m.length rfl (h0 := h) o.1 hi hd
        (fun h' hh => g.one h' (fun b' hb => hh b' (fun e => hb (e ▸ rfl)))) (al hk) (fun _ _ => rfl)
    · simp only [hk, Bool.false_eq_true, if_false, g.apart i, g.range h (fun _ _ => rfl)]
      exact writeRange_ok o.1 hi

theorem fill_ok {k : Kind} {h : Heap A} {q : Ptr} {l : List (Cell A)} {c : Cell A} {s : Src A} (o : Owns h q l) {i n : Nat}
    (hi : i + n ≤ l.length) (hd : Dead k l i n) (g : Gives h q s [c]) (al : c.alive = true) :
    fill k h q i s n = .ok (h.over q (splice l i (List.replicate n c))) := by
  have g0 := g.one h (fun _ _ => rfl) 0 c rfl
  cases q with
  | none =>
    cases o
    have : n = 0 := by simp at hi; omega
    subst this
    unfold fill
    by_cases hk : k.managed = true
    · simp [hk, fillLoop, Heap.over]
    · simp [hk, g0, al, Heap.writeRange, Heap.over]
  | some b =>
    unfold fill
    by_cases hk : k.managed = true
    · rw [if_pos hk]
      exact fillLoop_ok n (h0 := h) o.1 hi hd
        (fun h' hh => g.one h' (fun b' hb => hh b' (fun e => hb (e ▸ rfl))) 0 c rfl) al (fun _ _ => rfl)
    · simp only [hk, Bool.false_eq_true, if_false, g0, al, Bool.not_true]
      exact writeRange_ok o.1 (by simpa using hi)

theorem destruct_ok {k : Kind} {h : Heap A} {q : Ptr} {l : List (Cell A)} (o : Owns h q l) {i n : Nat} (hi : i + n ≤ l.length)
    (al : k.managed = true → ∀ c ∈ l, c.alive = true) :
    destruct k h q i n = .ok (h.over q (if k.managed then splice l i (List.replicate n .raw) else l)) := by
  unfold destruct
  by_cases hk : k.managed = true
  · rw [if_pos hk, if_pos hk]
    cases q with
    | none =>
      cases o
      have : n = 0 := by simp at hi; omega
      subst this; rfl
    | some b => exact destructLoop_ok n o.1 hi (fun j _ _ c hc => al hk c (List.mem_of_getElem? hc))
  · rw [if_neg hk, if_neg hk, over_same o]

/-! ## Blocks made, grown and given back -/

theorem alloc_step {h : Heap A} (w : Wf h) (n : Nat) : Step h (alloc h n).2 none (alloc h n).1 (List.replicate n .raw) := by
  unfold alloc
  by_cases hn : n = 0
  · subst hn; simp only [ne_eq, not_true_eq_false, if_false]; exact Step.refl w rfl
  · simp only [ne_eq, hn, not_false_eq_true, if_true]
    refine ⟨⟨by simp, by simpa using hn⟩, ?_, fun b h1 => (by cases h1), ?_, ?_⟩
    · intro b _ h2
      have : b ≠ h.next := fun e => h2 (e ▸ rfl)
      simp [this]
    · intro b h1; cases h1; exact Or.inr (w _ (Nat.le_refl _))
    · intro b h1
      dsimp only at h1 ⊢
      rw [if_neg (by omega)]; exact w _ (by omega)

theorem free_ok {k : Kind} {h : Heap A} {p : Ptr} {l : List (Cell A)} (o : Owns h p l) (al : k.managed = true → ∀ c ∈ l, c.alive = false) :
    free k h p = .ok (h.dropped p) := by
  cases p with
  | none => rfl
  | some b =>
    have : (k.managed && l.any Cell.alive) = false := by
      cases hk : k.managed
      · rfl
      · rw [Bool.true_and, List.any_eq_false]
        intro c hc; rw [al hk c hc]; simp
    simp [free, o.1, this, Heap.dropped]

theorem unget_ok {k : Kind} {h : Heap A} {p : Ptr} {l : List (Cell A)} (o : Owns h p l) (al : k.managed = true → ∀ c ∈ l, c.alive = true) :
    unget k h p = .ok (h.dropped p) := by
  cases p with
  | none => rfl
  | some b =>
    have d := destruct_ok (k := k) o (i := 0) (n := l.length) (by omega) al
    simp only [unget, owns_sizeOf o, ok_bind, d]
    have hl : (if k.managed then splice l 0 (List.replicate l.length .raw) else l).length = l.length := by
      split
      · rw [splice_length (by simp)]
      · rfl
    rw [free_ok (over_owns o hl)]
    · simp [Heap.dropped, Heap.over, put_put]
    · intro hk c hc
      rw [if_pos hk] at hc
      simp [splice] at hc
      rw [hc.2]; rfl

theorem Step.replace {h h1 : Heap A} {p q : Ptr} {l l' : List (Cell A)} (s : Step h h1 none q l') (o : Owns h p l) :
    Step h (h1.dropped p) p q l' ∧ Owns h1 p l := by
  cases p with
  | none => exact ⟨s, o⟩
  | some b =>
    have hq : q ≠ some b := by
      intro e
      rcases s.new b e with h2 | h2
      · cases h2
      · rw [o.1] at h2; cases h2
    have hb : h1.blocks b = some l := by rw [s.frame b (by simp) hq]; exact o.1
    refine ⟨⟨?_, ?_, ?_, ?_, ?_⟩, hb, o.2⟩
    · cases q with
      | none => exact s.own
      | some c =>
        have : c ≠ b := fun e => hq (e ▸ rfl)
        exact ⟨by simp only [Heap.dropped]; rw [put_blocks_ne _ this]; exact s.own.1, s.own.2⟩
    · intro b' h2 h3
      have : b' ≠ b := fun e => h2 (e ▸ rfl)
      simp only [Heap.dropped]; rw [put_blocks_ne _ this]; exact s.frame b' (by simp) h3
    · intro b' h2 _; cases h2; simp [Heap.dropped]
    · intro b' h2
      rcases s.new b' h2 with h3 | h3
      · cases h3
      · exact Or.inr h3
    · intro b' h2
      by_cases hb' : b' = b
      · subst hb'; simp [Heap.dropped]
      · simp only [Heap.dropped]; rw [put_blocks_ne _ hb']; exact s.wf _ h2

theorem realloc_grow {k : Kind} {mv : Bool} {h : Heap A} (w : Wf h) {p : Ptr} {l : List (Cell A)} (o : Owns h p l) {n : Nat} (hn : l.length ≤ n) :
    ∃ q h', realloc k mv h p n = .ok (q, h') ∧ Step h h' p q (l ++ List.replicate (n - l.length) .raw) := by
  by_cases h0 : n = 0
  · subst h0
    have : l = [] := List.length_eq_zero_iff.mp (by omega)
    subst this
    cases p with
    | some b => exact absurd rfl o.2
    | none => exact ⟨none, h, rfl, Step.refl w rfl⟩
  · cases p with
    | none =>
      cases o
      exact ⟨(alloc h n).1, (alloc h n).2, by simp [realloc, h0], by simpa using alloc_step w n⟩
    | some b =>
      obtain ⟨e, hl⟩ := o
      by_cases hle : n ≤ l.length
      · have : n = l.length := by omega
        subst this
        refine ⟨some b, h, ?_, ?_⟩
        · simp [realloc, h0, e, put_same e]
        · simpa using Step.refl w (p := some b) ⟨e, hl⟩
      · cases mv with
        | false =>
          refine ⟨some b, _, by simp [realloc, h0, e, hle]; rfl, ?_⟩
          refine ⟨⟨put_blocks_self .., by simp [hl]⟩, ?_, fun _ h1 h2 => absurd h1 h2, fun _ h1 => Or.inl h1, ?_⟩
          · intro b' h1 _
            have h3 : b' ≠ b := fun e => h1 (e ▸ rfl)
            rw [put_blocks_ne _ h3]
          · intro b' h1
            have : b' ≠ b := by intro hb; subst hb; rw [w _ h1] at e; cases e
            rw [put_blocks_ne _ this]; exact w _ h1
        | true =>
          refine ⟨some h.next, _, by simp [realloc, h0, e, hle]; rfl, ?_⟩
          have hne := wf_ne w e
          refine ⟨⟨by simp, by simp [hl]⟩, ?_, ?_, ?_, ?_⟩
          · intro b' h1 h2
            have h3 : b' ≠ b := fun e => h1 (e ▸ rfl)
            have h4 : b' ≠ h.next := fun e => h2 (e ▸ rfl)
            simp [h3, h4]
          · intro b' h1 h2; cases h1; simp [hne]
          · intro b' h1; cases h1; exact Or.inr (w _ (Nat.le_refl _))
          · intro b' h1
            dsimp only at h1 ⊢
            rw [if_neg (by omega)]
            split
            · rfl
            · exact w _ (by omega)

theorem realloc_cut {k : Kind} {mv : Bool} {h : Heap A} (w : Wf h) {p : Ptr} {l : List (Cell A)} (o : Owns h p l) {n : Nat} (hn : n ≤ l.length)
    (dead : k.managed = true → ∀ c ∈ l.drop n, c.alive = false) :
    ∃ q h', realloc k mv h p n = .ok (q, h') ∧ Step h h' p q (l.take n) := by
  by_cases h0 : n = 0
  · subst h0
    have hf := free_ok (k := k) o (fun hk c hc => dead hk c (by simpa using hc))
    refine ⟨none, h.dropped p, by simp [realloc, hf], ?_⟩
    have := (Step.refl (h := h) w (p := none) (l := []) rfl).replace o
    exact this.1
  · cases p with
    | none => cases o; simp at hn; exact absurd hn h0
    | some b =>
      obtain ⟨e, hl⟩ := o
      have hd : (k.managed && (l.drop n).any Cell.alive) = false := by
        cases hk : k.managed
        · rfl
        · rw [Bool.true_and, List.any_eq_false]
          intro c hc; rw [dead hk c hc]; simp
      refine ⟨some b, _, by simp only [realloc, ne_eq, h0, not_false_eq_true, if_true, e, hn, hd]; rfl, ?_⟩
      refine ⟨⟨put_blocks_self .., by simp [h0, hl]⟩, ?_, fun _ h1 h2 => absurd h1 h2, fun _ h1 => Or.inl h1, ?_⟩
      · intro b' h1 _
        have h3 : b' ≠ b := fun e => h1 (e ▸ rfl)
        rw [put_blocks_ne _ h3]
      · intro b' h1
        have : b' ≠ b := by intro hb; subst hb; rw [w _ h1] at e; cases e
        rw [put_blocks_ne _ this]; exact w _ h1

/-! ## Relocation, for types with destructors -/

/-- Two runs of elements moved to a new block, the old one given back. -/
def reloc2 (k : Kind) (h : Heap A) (p : Ptr) (toSize i₁ j₁ n₁ i₂ j₂ n₂ : Nat) : R (Ptr × Heap A) := do
  let t := alloc h toSize
  let h ← moveN k t.2 t.1 i₁ p j₁ n₁
  let h ← moveN k h t.1 i₂ p j₂ n₂
  let h ← free k h p
  return (t.1, h)

theorem reloc2_ok {k : Kind} (hk : k.managed = true) {h : Heap A} (w : Wf h) {p : Ptr} {cs : List (Cell A)} (o : Owns h p cs)
    {n i₁ j₁ n₁ i₂ j₂ n₂ : Nat} (hi₁ : i₁ + n₁ ≤ n) (hi₂ : i₂ + n₂ ≤ n) (hi : i₁ + n₁ ≤ i₂ ∨ i₂ + n₂ ≤ i₁)
    (hj₁ : j₁ + n₁ ≤ cs.length) (hj₂ : j₂ + n₂ ≤ cs.length) (hj : j₁ + n₁ ≤ j₂ ∨ j₂ + n₂ ≤ j₁)
    (al : ∀ m c, cs[m]? = some c → (c.alive = true ↔ (j₁ ≤ m ∧ m < j₁ + n₁) ∨ (j₂ ≤ m ∧ m < j₂ + n₂))) :
    ∃ q h', reloc2 k h p n i₁ j₁ n₁ i₂ j₂ n₂ = .ok (q, h') ∧
      Step h h' p q (splice (splice (List.replicate n .raw) i₁ ((cs.drop j₁).take n₁)) i₂ ((cs.drop j₂).take n₂)) := by
  have st := alloc_step w n
  have len₁ : ((cs.drop j₁).take n₁).length = n₁ := by simp; omega
  have len₂ : ((cs.drop j₂).take n₂).length = n₂ := by simp; omega
  by_cases hz : n₁ = 0 ∧ n₂ = 0
  · obtain ⟨rfl, rfl⟩ := hz
    have o' := (st.replace o).2
    have hf := free_ok (k := k) o' (fun _ c hc => by
      obtain ⟨m, hm⟩ := List.getElem?_of_mem hc
      have := al m c hm
      cases hc' : c.alive
      · rfl
      · rw [hc'] at this
        have := this.mp rfl
        omega)
    refine ⟨(alloc h n).1, (alloc h n).2.dropped p, ?_, ?_⟩
    · simp only [reloc2, moveN_zero, ok_bind, hf, pure_ok]
    · simp only [List.take_zero, splice_nil]
      exact (st.replace o).1
  · cases p with
    | none =>
      cases o
      simp at hj₁ hj₂
      exact absurd ⟨hj₁.2, hj₂.2⟩ hz
    | some b =>
      obtain ⟨e, hl⟩ := o
      have hn : n ≠ 0 := by omega
      have ha : alloc h n = (some h.next, (alloc h n).2) := by simp [alloc, hn]
      have hne := wf_ne w e
      have et : (alloc h n).2.blocks h.next = some (List.replicate n .raw) := by simp [alloc, hn]
      have eb : (alloc h n).2.blocks b = some cs := by simp [alloc, hn, hne, e]
      have m1 := moveN_ok hk (Ne.symm hne) n₁ (i := i₁) (j := j₁) et eb (by simpa using hi₁)
        (by
          intro _ m _ _ c hc
          rw [List.getElem?_replicate] at hc
          split at hc
          · cases hc; rfl
          · cases hc) hj₁ rfl
        (by
          intro c hc
          obtain ⟨m, hm⟩ := List.getElem?_of_mem hc
          have := lt_of_get hm
          rw [List.getElem?_take_of_lt (by omega), List.getElem?_drop] at hm
          exact (al _ _ hm).mpr (Or.inl ⟨by omega, by omega⟩))
      have src2 : ((splice cs j₁ (List.replicate n₁ .raw)).drop j₂).take n₂ = (cs.drop j₂).take n₂ := by
        apply List.ext_getElem?
        intro m
        by_cases hm : m < n₂
        · rw [List.getElem?_take_of_lt hm, List.getElem?_take_of_lt hm, List.getElem?_drop, List.getElem?_drop,
            splice_get (by simpa using hj₁)]
          split
          · rfl
          · split
            · simp at *; omega
            · rfl
        · rw [List.getElem?_eq_none (by simp; omega), List.getElem?_eq_none (by simp; omega)]
      have spl1 : (splice (List.replicate n .raw) i₁ ((cs.drop j₁).take n₁)).length = n := by
        rw [splice_length (by rw [len₁]; simpa using hi₁)]; simp
      have sps1 : (splice cs j₁ (List.replicate n₁ .raw)).length = cs.length := splice_length (by simpa using hj₁)
      have m2 := moveN_ok hk (Ne.symm hne) n₂ (i := i₂) (j := j₂)
        (h := ((alloc h n).2.put h.next (some (splice (List.replicate n .raw) i₁ ((cs.drop j₁).take n₁)))).put b
          (some (splice cs j₁ (List.replicate n₁ .raw))))
        (by rw [put_blocks_ne _ (Ne.symm hne), put_blocks_self]) (put_blocks_self ..) (by rw [spl1]; exact hi₂)
        (by
          intro _ m h1 h2 c hc
          rw [splice_get (by rw [len₁]; simpa using hi₁), len₁] at hc
          split at hc
          · rw [List.getElem?_replicate] at hc
            split at hc
            · cases hc; rfl
            · cases hc
          · split at hc
            · omega
            · rw [List.getElem?_replicate] at hc
              split at hc
              · cases hc; rfl
              · cases hc) (by rw [sps1]; exact hj₂) src2
        (by
          intro c hc
          obtain ⟨m, hm⟩ := List.getElem?_of_mem hc
          have := lt_of_get hm
          rw [List.getElem?_take_of_lt (by omega), List.getElem?_drop] at hm
          exact (al _ _ hm).mpr (Or.inr ⟨by omega, by omega⟩))
      rw [put_comm _ (Ne.symm (Ne.symm hne)), put_put, put_put] at m2
      refine ⟨some h.next, (((alloc h n).2.put h.next (some (splice (splice (List.replicate n .raw) i₁ ((cs.drop j₁).take n₁)) i₂
        ((cs.drop j₂).take n₂)))).put b (some (splice (splice cs j₁ (List.replicate n₁ .raw)) j₂ (List.replicate n₂ .raw)))).put b none,
        ?_, ?_⟩
      · unfold reloc2
        rw [ha]
        simp only [m1, ok_bind, m2]
        rw [free_ok (l := splice (splice cs j₁ (List.replicate n₁ .raw)) j₂ (List.replicate n₂ .raw))]
        · rfl
        · refine ⟨put_blocks_self .., ?_⟩
          intro h0
          have := splice_length (cs := splice cs j₁ (List.replicate n₁ .raw)) (i := j₂) (l := List.replicate n₂ .raw) (by simp [sps1]; omega)
          rw [h0, sps1] at this
          exact hl (List.length_eq_zero_iff.mp this.symm)
        · intro _ c hc
          obtain ⟨m, hm⟩ := List.getElem?_of_mem hc
          rw [splice_get (by simp [sps1]; omega), splice_get (by simpa using hj₁)] at hm
          simp only [List.length_replicate] at hm
          cases hc' : c.alive
          · rfl
          · exfalso
            by_cases r2 : j₂ ≤ m ∧ m < j₂ + n₂
            · rw [if_neg (by omega), if_pos (by omega), List.getElem?_replicate] at hm
              split at hm
              · cases hm; cases hc'
              · cases hm
            · have hm' : (if m < j₁ then cs[m]? else if m < j₁ + n₁ then (List.replicate n₁ (.raw : Cell A))[m - j₁]? else cs[m]?) = some c := by
                by_cases r : m < j₂
                · rwa [if_pos r] at hm
                · rwa [if_neg r, if_neg (by omega)] at hm
              by_cases r1 : j₁ ≤ m ∧ m < j₁ + n₁
              · rw [if_neg (by omega), if_pos (by omega), List.getElem?_replicate] at hm'
                split at hm'
                · cases hm'; cases hc'
                · cases hm'
              · have : cs[m]? = some c := by
                  by_cases r : m < j₁
                  · rwa [if_pos r] at hm'
                  · rwa [if_neg r, if_neg (by omega)] at hm'
                have := (al _ _ this).mp hc'
                omega
      · rw [put_put]
        have s1 := st.over (l2 := splice (splice (List.replicate n .raw) i₁ ((cs.drop j₁).take n₁)) i₂ ((cs.drop j₂).take n₂))
          (by rw [splice_length (by rw [spl1, len₂]; exact hi₂), spl1]; simp)
        rw [ha] at s1
        exact (s1.replace (p := some b) (l := cs) ⟨e, hl⟩).1

theorem splice_mid {x y z y' : List (Cell A)} {i : Nat} (hi : i = x.length) (hy : y'.length = y.length) :
    splice (x ++ y ++ z) i y' = x ++ y' ++ z := by
  subst hi
  unfold splice
  congr 1
  · congr 1
    rw [List.append_assoc, List.take_append_of_le_length (Nat.le_refl _), List.take_length]
  · rw [hy, ← List.length_append, List.drop_append_of_le_length (by simp), List.drop_of_length_le (by simp), List.nil_append]

end ELC.Arr
