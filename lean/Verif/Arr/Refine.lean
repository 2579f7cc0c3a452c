import Verif.Arr.Ops
import Mathlib.Data.List.Forall2
/-! What memory holds while a program works on its arrays, and how it stands to the lists of the specification. -/
namespace ELC.Arr

open Spec

variable {A : Type}

/-- A cell of the program stands for a cell of the specification: the same, or anything for a place not yet written. -/
def Cell.refines (k : Kind) (c s : Cell A) : Prop := s = c ∨ (k = .plain ∧ s = .raw)

/-- The cells of `l` stand for those of `a`. -/
def Ref (k : Kind) (a l : List (Cell A)) : Prop := List.Forall₂ (fun s c => Cell.refines k c s) a l

theorem Ref.refl (k : Kind) (l : List (Cell A)) : Ref k l l := List.forall₂_same.mpr (fun _ _ => Or.inl rfl)

theorem Ref.length {k : Kind} {a l : List (Cell A)} (r : Ref k a l) : a.length = l.length := List.Forall₂.length_eq r

theorem Ref.append {k : Kind} {a l b m : List (Cell A)} (r : Ref k a l) (r' : Ref k b m) : Ref k (a ++ b) (l ++ m) := List.rel_append r r'

theorem Ref.take {k : Kind} {a l : List (Cell A)} (r : Ref k a l) (n : Nat) : Ref k (a.take n) (l.take n) := List.forall₂_take n r

theorem Ref.drop {k : Kind} {a l : List (Cell A)} (r : Ref k a l) (n : Nat) : Ref k (a.drop n) (l.drop n) := List.forall₂_drop n r

theorem Ref.inserted {k : Kind} {a l b m : List (Cell A)} (r : Ref k a l) (r' : Ref k b m) (n : Nat) :
    Ref k (inserted a n b) (Spec.inserted l n m) := ((r.take n).append r').append (r.drop n)

theorem Ref.get {k : Kind} {a l : List (Cell A)} (r : Ref k a l) {i : Nat} {s : Cell A} (h : a[i]? = some s) :
    ∃ c, l[i]? = some c ∧ Cell.refines k c s := by
  induction r generalizing i with
  | nil => simp at h
  | cons hd _ ih =>
    cases i with
    | zero => simp at h; subst h; exact ⟨_, rfl, hd⟩
    | succ i => exact ih (i := i) (by simpa using h)

theorem Ref.set {k : Kind} {a l : List (Cell A)} (r : Ref k a l) (i : Nat) (c : Cell A) : Ref k (a.set i c) (l.set i c) := by
  induction r generalizing i with
  | nil => exact List.Forall₂.nil
  | cons hd tl ih =>
    cases i with
    | zero => exact List.Forall₂.cons (Or.inl rfl) tl
    | succ i => exact List.Forall₂.cons hd (ih i)

theorem Ref.eq {k : Kind} (hk : k ≠ .plain) {a l : List (Cell A)} (r : Ref k a l) : a = l := by
  induction r with
  | nil => rfl
  | cons hd _ ih =>
    rcases hd with h | h
    · rw [h, ih]
    · exact absurd h.1 hk

theorem Ref.fresh {k : Kind} {d : A} {n : Nat} {m : List (Cell A)} (f : Fresh k d n m) : Ref k (List.replicate n (Spec.fresh k d)) m := by
  obtain ⟨f1, f2⟩ := f
  subst f1
  cases k with
  | plain =>
    clear f2
    induction m with
    | nil => exact List.Forall₂.nil
    | cons c m ih => exact List.Forall₂.cons (Or.inr ⟨rfl, rfl⟩) ih
  | init => rw [f2 (by simp)]; simp only [List.length_replicate]; exact Ref.refl _ _
  | object => rw [f2 (by simp)]; simp only [List.length_replicate]; exact Ref.refl _ _

theorem refines_alive {k : Kind} {c s : Cell A} (r : Cell.refines k c s) (h : s.alive = true) : s = c := by
  rcases r with h1 | h1
  · exact h1
  · rw [h1.2] at h; cases h

/-- Each array has its block, with its elements in it; no two have the same; there are no other blocks. -/
structure Held (s : State A) (l : Nat → List (Cell A)) : Prop where
  own : ∀ x, Owns s.heap (s.arr x) (l x)
  sep : ∀ x y b, s.arr x = some b → s.arr y = some b → x = y
  cover : ∀ b c, s.heap.blocks b = some c → ∃ x, s.arr x = some b
  wf : Wf s.heap

theorem Held.apart {s : State A} {l : Nat → List (Cell A)} (h : Held s l) {x y : Nat} (n : x ≠ y) : Apart (s.arr x) (s.arr y) :=
  fun b h1 h2 => n (h.sep x y b h2 h1)

theorem Held.update {s : State A} {l : Nat → List (Cell A)} (h : Held s l) {x : Nat} {q : Ptr} {h' : Heap A} {l' : List (Cell A)}
    (st : Step s.heap h' (s.arr x) q l') : Held (s.set x q h') (put l x l') := by
  constructor
  · intro y
    by_cases hy : y = x
    · subst hy; simpa [State.set, put] using st.own
    · simpa [State.set, put, hy] using (st.other (h.own y) (h.apart (Ne.symm hy))).1
  · intro y z b hy hz
    simp only [State.set] at hy hz
    by_cases h1 : y = x <;> by_cases h2 : z = x
    · rw [h1, h2]
    · rw [if_pos h1] at hy; rw [if_neg h2] at hz
      exact absurd hy ((st.other (h.own z) (h.apart (Ne.symm h2))).2 b hz)
    · rw [if_neg h1] at hy; rw [if_pos h2] at hz
      exact absurd hz ((st.other (h.own y) (h.apart (Ne.symm h1))).2 b hy)
    · rw [if_neg h1] at hy; rw [if_neg h2] at hz
      exact h.sep y z b hy hz
  · intro b c hb
    simp only [State.set] at hb ⊢
    by_cases h1 : q = some b
    · exact ⟨x, by simp [h1]⟩
    · by_cases h2 : s.arr x = some b
      · rw [st.gone b h2 h1] at hb; cases hb
      · rw [st.frame b h2 h1] at hb
        obtain ⟨y, hy⟩ := h.cover b c hb
        refine ⟨y, ?_⟩
        rw [if_neg (fun e => h2 (by rw [← e]; exact hy))]; exact hy
  · exact st.wf

theorem set_self (s : State A) (x : Nat) (h : Heap A) : s.set x (s.arr x) h = { s with heap := h } := by
  cases s; simp only [State.set, State.mk.injEq, true_and]
  funext y; split
  · next e => rw [e]
  · rfl

/-- Elements of an array changed in place. -/
theorem Held.over {s : State A} {l : Nat → List (Cell A)} (h : Held s l) (x : Nat) {l' : List (Cell A)} (e : l'.length = (l x).length) :
    Held { s with heap := s.heap.over (s.arr x) l' } (put l x l') := by
  have := h.update ((Step.refl h.wf (h.own x)).over e)
  rwa [set_self] at this

theorem put_self_list (l : Nat → List (Cell A)) (x : Nat) (m : List (Cell A)) : put l x m x = m := by simp [put]
theorem put_ne_list (l : Nat → List (Cell A)) {x y : Nat} (h : y ≠ x) (m : List (Cell A)) : put l x m y = l y := by simp [put, h]

/-- The arrays, their elements, and the lists they stand for. -/
structure Shows (k : Kind) (s : State A) (l : Nat → List (Cell A)) (a : Arrays A) : Prop where
  held : Held s l
  alive : ∀ x, Alive k (l x)
  ref : ∀ x, Ref k (a x) (l x)

theorem Shows.put {k : Kind} {s s' : State A} {l : Nat → List (Cell A)} {a : Arrays A} (w : Shows k s l a) {x : Nat} {m m' : List (Cell A)}
    (h : Held s' (Spec.put l x m')) (am : Alive k m') (r : Ref k m m') : Shows k s' (Spec.put l x m') (Spec.put a x m) := by
  refine ⟨h, ?_, ?_⟩
  · intro y
    by_cases hy : y = x
    · subst hy; rw [put_self_list]; exact am
    · rw [put_ne_list _ hy]; exact w.alive y
  · intro y
    by_cases hy : y = x
    · subst hy; rw [put_self_list, put_self_list]; exact r
    · rw [put_ne_list _ hy, put_ne_list _ hy]; exact w.ref y

/-- An operation that changes `x` only. -/
theorem Shows.update {k : Kind} {s : State A} {l : Nat → List (Cell A)} {a : Arrays A} (w : Shows k s l a) {x : Nat} {r : R (Ptr × Heap A)}
    {q : Ptr} {h' : Heap A} {m m' : List (Cell A)} (e : r = .ok (q, h')) (st : Step s.heap h' (s.arr x) q m') (am : Alive k m')
    (rf : Ref k m m') : ∃ s' l', Arr.update s x r = .ok s' ∧ Shows k s' l' (Spec.put a x m) :=
  ⟨_, _, by rw [e]; rfl, w.put (w.held.update st) am rf⟩

/-- An operation that replaces `x`. -/
theorem Shows.replace {k : Kind} {s : State A} {l : Nat → List (Cell A)} {a : Arrays A} (w : Shows k s l a) {x : Nat} {r : R (Ptr × Heap A)}
    {q : Ptr} {h' : Heap A} {m m' : List (Cell A)} (e : r = .ok (q, h')) (st : Step s.heap h' none q m') (am : Alive k m')
    (rf : Ref k m m') : ∃ s' l', Arr.replace k s x r = .ok s' ∧ Shows k s' l' (Spec.put a x m) := by
  obtain ⟨st2, o2⟩ := st.replace (w.held.own x)
  have u := unget_ok (k := k) o2 (w.alive x)
  exact ⟨_, _, by subst e; simp only [Arr.replace, ok_bind, u, pure_ok], w.put (w.held.update st2) am rf⟩

theorem Alive.append {k : Kind} {l m : List (Cell A)} (h : Alive k l) (h' : Alive k m) : Alive k (l ++ m) := by
  intro hk c hc
  rcases List.mem_append.mp hc with hc | hc
  · exact h hk c hc
  · exact h' hk c hc

theorem Alive.take {k : Kind} {l : List (Cell A)} (h : Alive k l) (n : Nat) : Alive k (l.take n) :=
  fun hk c hc => h hk c (List.mem_of_mem_take hc)

theorem Alive.drop {k : Kind} {l : List (Cell A)} (h : Alive k l) (n : Nat) : Alive k (l.drop n) :=
  fun hk c hc => h hk c (List.mem_of_mem_drop hc)

theorem Alive.inserted {k : Kind} {l m : List (Cell A)} (h : Alive k l) (h' : Alive k m) (n : Nat) : Alive k (inserted l n m) :=
  ((h.take n).append h').append (h.drop n)

theorem Alive.live (k : Kind) (vs : List A) : Alive k (vs.map .live) := by
  intro _ c hc
  obtain ⟨v, _, e⟩ := List.mem_map.mp hc
  rw [← e]; rfl

theorem Alive.replicate {k : Kind} {c : Cell A} (h : c.alive = true) (n : Nat) : Alive k (List.replicate n c) := by
  intro _ c' hc
  rw [(List.mem_replicate.mp hc).2]; exact h

theorem Alive.nil {k : Kind} : Alive k ([] : List (Cell A)) := by intro _ c hc; cases hc

theorem Alive.set {k : Kind} {l : List (Cell A)} (h : Alive k l) (i : Nat) {c : Cell A} (hc : c.alive = true) : Alive k (l.set i c) := by
  intro hk c' h'
  rcases List.mem_or_eq_of_mem_set h' with h1 | h1
  · exact h hk c' h1
  · rw [h1]; exact hc

/-- A source in another array, whatever happens to this one. -/
theorem Shows.gives {k : Kind} {s : State A} {l : Nat → List (Cell A)} {a : Arrays A} (w : Shows k s l a) {x y : Nat} (hn : x ≠ y) {i n : Nat}
    (hi : i + n ≤ (l y).length) : ∀ h1 q l1, Step s.heap h1 (s.arr x) q l1 → Gives h1 q (.at_ (s.arr y) i) (((l y).drop i).take n) := by
  intro h1 q l1 st
  obtain ⟨o, ap⟩ := st.other (w.held.own y) (w.held.apart hn)
  exact gives_at o ap hi

theorem Shows.gives_one {k : Kind} {s : State A} {l : Nat → List (Cell A)} {a : Arrays A} (w : Shows k s l a) {x y : Nat} (hn : x ≠ y) {i : Nat}
    {c : Cell A} (hi : (l y)[i]? = some c) : ∀ h1 q l1, Step s.heap h1 (s.arr x) q l1 → Gives h1 q (.at_ (s.arr y) i) [c] := by
  intro h1 q l1 st
  obtain ⟨o, ap⟩ := st.other (w.held.own y) (w.held.apart hn)
  exact gives_elem o ap hi

theorem owns_some {h : Heap A} {p : Ptr} {l : List (Cell A)} (o : Owns h p l) {i : Nat} (hi : i < l.length) :
    ∃ b, p = some b ∧ h.blocks b = some l := by
  cases p with
  | none => cases o; simp at hi
  | some b => exact ⟨b, rfl, o.1⟩

theorem take_one {l : List (Cell A)} {i : Nat} {c : Cell A} (h : l[i]? = some c) : (l.drop i).take 1 = [c] := by
  rw [List.take_one, List.head?_drop, h]; rfl

theorem splice_last (l : List (Cell A)) (c : Cell A) : splice (l ++ [.raw]) l.length [c] = l ++ [c] := by
  have := splice_mid (x := l) (y := [.raw]) (z := []) (y' := [c]) rfl (by simp)
  simpa using this

theorem splice_one (l : List (Cell A)) {i : Nat} (h : i < l.length) (c : Cell A) : splice l i [c] = l.set i c := by
  unfold splice
  rw [List.set_eq_take_append_cons_drop, if_pos h]
  simp

/-- `push_back` of an element of another array, moved. -/
theorem pushMove_ok {k : Kind} {mv : Bool} {s : State A} {l : Nat → List (Cell A)} {a : Arrays A} (w : Shows k s l a) {x y : Nat} (hn : x ≠ y)
    {i : Nat} {c sc : Cell A} (hi : (l y)[i]? = some c) (hs : Cell.refines k c sc) :
    ∃ s' l', Arr.update s x (applyEndMove k mv s.heap (s.arr x) (s.arr y) i) = .ok s' ∧
      Shows k s' l' (Spec.put (Spec.put a x (a x ++ [sc])) y (if k.managed then (a y).set i .husk else a y)) := by
  have hlt := lt_of_get hi
  obtain ⟨q, h1, e1, s1⟩ := sizeGrow_ok (mv := mv) w.held.wf (w.held.own x) (w.alive x) (n := (l x).length + 1) (by omega)
  rw [Nat.add_sub_cancel_left] at s1
  obtain ⟨o, ap⟩ := s1.other (w.held.own y) (w.held.apart hn)
  obtain ⟨b', hb', eb'⟩ := owns_some o hlt
  obtain ⟨b, hb, eb⟩ := owns_some s1.own (i := (l x).length) (by simp)
  have hbb : b ≠ b' := fun h => ap b' hb' (by rw [hb, h])
  have hd := dead_raws (k := k) (x := l x) (z := []) (m := raws 1) (n := 1) rfl (by simp) (fun _ => rfl)
  rw [List.append_nil] at hd
  have st := s1.over (l2 := l x ++ [c]) (by simp)
  have w1 := w.held.update st
  have hset : h1.over q (l x ++ [c]) = h1.put b (some (l x ++ [c])) := by rw [hb]; rfl
  by_cases hk : k.managed = true
  · have hc : c.alive = true := w.alive y hk c (List.mem_of_getElem? hi)
    have hm := moveLoop_ok (k := k) (i := (l x).length) (j := i) hbb 1 eb eb' (by simp) hd (by omega) (take_one hi)
      (by intro c' h'; rw [List.mem_singleton] at h'; rw [h']; exact hc)
    have w2 := w1.over y (l' := (l y).set i .husk) (by rw [put_ne_list _ (Ne.symm hn)]; simp)
    have harr : (s.set x q (h1.over q (l x ++ [c]))).arr y = some b' := by simp [State.set, Ne.symm hn, hb']
    rw [harr] at w2
    refine ⟨_, _, ?_, w2, ?_, ?_⟩
    · simp only [Arr.update, applyEndMove, owns_sizeOf (w.held.own x), ok_bind, e1, hk, if_true, hb, hb', hm, pure_ok]
      rw [show (raws 1 : List (Cell A)) = [.raw] from rfl, splice_last, show List.replicate 1 (Cell.husk : Cell A) = [.husk] from rfl,
        splice_one _ hlt]
      simp [State.set, Heap.over]
    · intro z
      by_cases h1 : z = y
      · subst h1; rw [put_self_list]; exact (w.alive z).set i rfl
      · rw [put_ne_list _ h1]
        by_cases h2 : z = x
        · subst h2; rw [put_self_list]
          exact (w.alive z).append (by intro _ c' h'; rw [List.mem_singleton] at h'; rw [h']; exact hc)
        · rw [put_ne_list _ h2]; exact w.alive z
    · intro z
      rw [if_pos hk]
      by_cases h1 : z = y
      · subst h1; rw [put_self_list, put_self_list]; exact (w.ref z).set i _
      · rw [put_ne_list _ h1, put_ne_list _ h1]
        by_cases h2 : z = x
        · subst h2; rw [put_self_list, put_self_list]
          exact (w.ref z).append (List.Forall₂.cons hs List.Forall₂.nil)
        · rw [put_ne_list _ h2, put_ne_list _ h2]; exact w.ref z
  · have hm : memcpy h1 (some b) (l x).length (some b') i 1 = .ok (h1.put b (some (l x ++ [c]))) := by
      unfold memcpy memmove
      rw [if_neg (fun h => hbb (Option.some.inj h.1)), readRange_ok eb' (by omega), take_one hi]
      dsimp only
      rw [writeRange_ok eb (by simp), show (raws 1 : List (Cell A)) = [.raw] from rfl, splice_last]
    refine ⟨_, _, ?_, w1, ?_, ?_⟩
    · simp only [Arr.update, applyEndMove, owns_sizeOf (w.held.own x), ok_bind, e1, hk, Bool.false_eq_true, if_false, hb, hb', hm, pure_ok]
      rfl
    · intro z h; exact absurd h hk
    · intro z
      rw [if_neg hk]
      by_cases h1 : z = y
      · subst h1; rw [put_self_list, put_ne_list _ (Ne.symm hn)]; exact w.ref z
      · rw [put_ne_list _ h1]
        by_cases h2 : z = x
        · subst h2; rw [put_self_list, put_self_list]
          exact (w.ref z).append (List.Forall₂.cons hs List.Forall₂.nil)
        · rw [put_ne_list _ h2, put_ne_list _ h2]; exact w.ref z

/-- What the specification allows, the program does. -/
theorem exec_ok {k : Kind} {d : A} {s : State A} {l : Nat → List (Cell A)} {a a' : Arrays A} (w : Shows k s l a) {op : Op A}
    (h : Spec.exec k d a op = some a') : ∃ s' l', exec k d s op = .ok s' ∧ Shows k s' l' a' := by
  have len : ∀ x, (a x).length = (l x).length := fun x => (w.ref x).length
  cases op with
  | sized x n =>
    simp only [Spec.exec, Option.some.injEq] at h; subst h
    obtain ⟨q, h', m, e, f, st⟩ := getN_ok (k := k) (d := d) w.held.wf n
    exact w.replace e st f.alive (Ref.fresh f)
  | filled x n v =>
    simp only [Spec.exec, Option.some.injEq] at h; subst h
    obtain ⟨q, h', e, st⟩ := getFill_ok (k := k) w.held.wf n v
    exact w.replace e st (Alive.replicate rfl n) (Ref.refl _ _)
  | listed x vs =>
    simp only [Spec.exec, Option.some.injEq] at h; subst h
    obtain ⟨q, h', e, st⟩ := asArray_ok (k := k) (n := vs.length) w.held.wf (s := .out vs) (m := vs.map .live) (by simp) (fun _ _ _ => gives_out vs) (Alive.live k vs)
    exact w.replace e st (Alive.live k vs) (Ref.refl _ _)
  | viewed x y i n =>
    simp only [Spec.exec] at h
    split at h
    · next hi =>
      simp only [Option.some.injEq] at h; subst h
      rw [len y] at hi
      have am := ((w.alive y).drop i).take n
      obtain ⟨q, h', e, st⟩ := asArray_ok (k := k) (n := n) w.held.wf (s := .at_ (s.arr y) i) (m := ((l y).drop i).take n)
        (by simp; omega) (fun h1 q st => by
          obtain ⟨o, ap⟩ := st.other (w.held.own y) (fun _ _ => by simp)
          exact gives_at o ap hi) am
      exact w.replace e st am (((w.ref y).drop i).take n)
    · cases h
  | assign x y =>
    simp only [Spec.exec, Option.some.injEq] at h; subst h
    obtain ⟨q, h', e, st⟩ := copyGet_ok (k := k) w.held.wf (w.held.own y) (w.alive y)
    exact w.replace e st (w.alive y) (w.ref y)
  | swap x y =>
    simp only [Spec.exec, Option.some.injEq] at h; subst h
    refine ⟨_, fun z => if z = x then l y else if z = y then l x else l z, rfl, ⟨?_, ?_, ?_, w.held.wf⟩, ?_, ?_⟩
    · intro z
      dsimp only
      split
      · exact w.held.own y
      · split
        · exact w.held.own x
        · exact w.held.own z
    · intro z z' b h1 h2
      dsimp only at h1 h2
      have e : ∀ z, (if z = x then s.arr y else if z = y then s.arr x else s.arr z) = s.arr (if z = x then y else if z = y then x else z) := by
        intro z; split
        · rfl
        · split <;> rfl
      rw [e] at h1 h2
      have := w.held.sep _ _ b h1 h2
      split at this <;> split at this <;> (try split at this) <;> (try split at this) <;> omega
    · intro b c hb
      obtain ⟨z, hz⟩ := w.held.cover b c hb
      by_cases e1 : z = x
      · by_cases e2 : y = x
        · exact ⟨z, by simp [e1, e2]; rw [← e1]; exact hz⟩
        · exact ⟨y, by simp [e2]; rw [← e1]; exact hz⟩
      · by_cases e2 : z = y
        · exact ⟨x, by simp; rw [← e2]; exact hz⟩
        · exact ⟨z, by simp [e1, e2]; exact hz⟩
    · intro z
      split
      · exact w.alive y
      · split
        · exact w.alive x
        · exact w.alive z
    · intro z
      split
      · exact w.ref y
      · split
        · exact w.ref x
        · exact w.ref z
  | clear x =>
    simp only [Spec.exec, Option.some.injEq] at h; subst h
    refine w.replace (q := none) (h' := s.heap) (m' := []) rfl ⟨rfl, fun _ _ _ => rfl, ?_, ?_, w.held.wf⟩ Alive.nil (Ref.refl _ _)
    · intro b hb; cases hb
    · intro b hb; cases hb
  | resize x n mv =>
    simp only [Spec.exec, Option.some.injEq] at h; subst h
    obtain ⟨q, h', m, e, f, st⟩ := resize_ok (k := k) (d := d) (mv := mv) w.held.wf (w.held.own x) (w.alive x) n
    rw [len x]
    exact w.update e st (((w.alive x).take n).append f.alive) (((w.ref x).take n).append (Ref.fresh f))
  | forwardResize x n mv =>
    simp only [Spec.exec, Option.some.injEq] at h; subst h
    obtain ⟨q, h', m, e, f, st⟩ := forwardResize_ok (k := k) (d := d) (mv := mv) w.held.wf (w.held.own x) (w.alive x) n
    rw [len x]
    exact w.update e st (f.alive.append ((w.alive x).drop _)) ((Ref.fresh f).append ((w.ref x).drop _))
  | insert x pos n mv =>
    simp only [Spec.exec] at h
    split at h
    · next hp =>
      simp only [Option.some.injEq] at h; subst h
      rw [len x] at hp
      obtain ⟨q, h', m, e, f, st⟩ := insert_ok (k := k) (d := d) (mv := mv) (n := n) w.held.wf (w.held.own x) (w.alive x) hp
      exact w.update e st ((w.alive x).inserted f.alive pos) ((w.ref x).inserted (Ref.fresh f) pos)
    · cases h
  | insertFill x pos n v mv =>
    simp only [Spec.exec] at h
    split at h
    · next hp =>
      simp only [Option.some.injEq] at h; subst h
      rw [len x] at hp
      obtain ⟨q, h', e, st⟩ := insertFill_ok (k := k) (mv := mv) (n := n) w.held.wf (w.held.own x) (w.alive x) hp (s := .out [v])
        (c := .live v) (fun _ _ _ _ => gives_out [v]) rfl
      exact w.update e st ((w.alive x).inserted (Alive.replicate rfl n) pos) ((w.ref x).inserted (Ref.refl _ _) pos)
    · cases h
  | insertFillFrom x pos n y i mv =>
    simp only [Spec.exec] at h
    split at h
    · next c hc =>
      split at h
      · next hp =>
        simp only [Option.some.injEq] at h; subst h
        rw [len x] at hp
        obtain ⟨c', h1, h2⟩ := (w.ref y).get hc
        have := refines_alive h2 hp.2.2
        subst this
        obtain ⟨q, h', e, st⟩ := insertFill_ok (k := k) (mv := mv) (n := n) w.held.wf (w.held.own x) (w.alive x) hp.1
          (w.gives_one hp.2.1 h1) hp.2.2
        exact w.update e st ((w.alive x).inserted (Alive.replicate hp.2.2 n) pos) ((w.ref x).inserted (Ref.refl _ _) pos)
      · cases h
    · cases h
  | insertData x pos vs mv =>
    simp only [Spec.exec] at h
    split at h
    · next hp =>
      simp only [Option.some.injEq] at h; subst h
      rw [len x] at hp
      obtain ⟨q, h', e, st⟩ := insertData_ok (k := k) (mv := mv) w.held.wf (w.held.own x) (w.alive x) hp (s := .out vs) (m := vs.map .live)
        (n := vs.length) (by simp) (fun _ _ _ _ => gives_out vs) (Alive.live k vs)
      exact w.update e st ((w.alive x).inserted (Alive.live k vs) pos) ((w.ref x).inserted (Ref.refl _ _) pos)
    · cases h
  | insertFrom x pos n y i mv =>
    simp only [Spec.exec] at h
    split at h
    · next hp =>
      simp only [Option.some.injEq] at h; subst h
      rw [len x, len y] at hp
      have am := ((w.alive y).drop i).take n
      obtain ⟨q, h', e, st⟩ := insertData_ok (k := k) (mv := mv) (n := n) w.held.wf (w.held.own x) (w.alive x) hp.1
        (m := ((l y).drop i).take n) (by simp; omega) (w.gives hp.2.1 hp.2.2) am
      exact w.update e st ((w.alive x).inserted am pos) ((w.ref x).inserted (((w.ref y).drop i).take n) pos)
    · cases h
  | insertResize x pos vs t mv =>
    simp only [Spec.exec] at h
    split at h
    · next hp =>
      simp only [Option.some.injEq] at h; subst h
      rw [len x] at hp ⊢
      obtain ⟨q, h', f, e, fr, st⟩ := insertResize_ok (k := k) (d := d) (mv := mv) w.held.wf (w.held.own x) (w.alive x) hp.1 (s := .out vs)
        (m := vs.map .live) (n := vs.length) (by simp) hp.2 (fun _ _ _ _ => gives_out vs) (Alive.live k vs)
      exact w.update e st (((w.alive x).inserted (Alive.live k vs) pos).append fr.alive)
        (((w.ref x).inserted (Ref.refl _ _) pos).append (Ref.fresh fr))
    · cases h
  | forwardInsertResize x pos vs t mv =>
    simp only [Spec.exec] at h
    split at h
    · next hp =>
      simp only [Option.some.injEq] at h; subst h
      rw [len x] at hp ⊢
      obtain ⟨q, h', f, e, fr, st⟩ := forwardInsertResize_ok (k := k) (d := d) (mv := mv) w.held.wf (w.held.own x) (w.alive x) hp.1
        (s := .out vs) (m := vs.map .live) (n := vs.length) (by simp) (fun h => hp.2.2 (List.length_eq_zero_iff.mp h)) hp.2.1
        (fun _ _ _ _ => gives_out vs) (Alive.live k vs)
      exact w.update e st (fr.alive.append ((w.alive x).inserted (Alive.live k vs) pos))
        ((Ref.fresh fr).append ((w.ref x).inserted (Ref.refl _ _) pos))
    · cases h
  | push x v mv =>
    simp only [Spec.exec, Option.some.injEq] at h; subst h
    obtain ⟨q, h', e, st⟩ := applyEnd_ok (k := k) (mv := mv) w.held.wf (w.held.own x) (w.alive x) (s := .out [v]) (m := [.live v]) (n := 1) rfl
      (fun _ _ _ _ => gives_out [v]) (Alive.live k [v])
    exact w.update e st ((w.alive x).append (Alive.live k [v])) ((w.ref x).append (Ref.refl _ _))
  | pushFrom x y i mv =>
    simp only [Spec.exec] at h
    split at h
    · next c hc =>
      split at h
      · next hp =>
        simp only [Option.some.injEq] at h; subst h
        obtain ⟨c', h1, h2⟩ := (w.ref y).get hc
        have am : Alive k [c'] := by
          intro hk c2 h2; rw [List.mem_singleton] at h2; rw [h2]; exact w.alive y hk c' (List.mem_of_getElem? h1)
        obtain ⟨q, h', e, st⟩ := applyEnd_ok (k := k) (mv := mv) (n := 1) w.held.wf (w.held.own x) (w.alive x) (m := [c']) rfl
          (w.gives_one hp h1) am
        exact w.update e st ((w.alive x).append am) ((w.ref x).append (List.Forall₂.cons h2 List.Forall₂.nil))
      · cases h
    · cases h
  | pushMove x y i mv =>
    simp only [Spec.exec] at h
    split at h
    · next c hc =>
      split at h
      · next hp =>
        simp only [Option.some.injEq] at h; subst h
        obtain ⟨c', h1, h2⟩ := (w.ref y).get hc
        exact pushMove_ok w hp h1 h2
      · cases h
    · cases h
  | append x vs mv =>
    simp only [Spec.exec, Option.some.injEq] at h; subst h
    obtain ⟨q, h', e, st⟩ := applyEnd_ok (k := k) (mv := mv) w.held.wf (w.held.own x) (w.alive x) (s := .out vs) (m := vs.map .live)
      (n := vs.length) (by simp) (fun _ _ _ _ => gives_out vs) (Alive.live k vs)
    exact w.update e st ((w.alive x).append (Alive.live k vs)) ((w.ref x).append (Ref.refl _ _))
  | appendFrom x y mv =>
    simp only [Spec.exec] at h
    split at h
    · next hp =>
      simp only [Option.some.injEq] at h; subst h
      have g := w.gives hp (i := 0) (n := (l y).length) (by omega)
      rw [List.drop_zero, List.take_length] at g
      obtain ⟨q, h', e, st⟩ := applyEnd_ok (k := k) (mv := mv) w.held.wf (w.held.own x) (w.alive x) rfl g (w.alive y)
      simp only [exec, owns_sizeOf (w.held.own y), ok_bind]
      exact w.update e st ((w.alive x).append (w.alive y)) ((w.ref x).append (w.ref y))
    · cases h
  | write x i v =>
    simp only [Spec.exec] at h
    split at h
    · next hi =>
      simp only [Option.some.injEq] at h; subst h
      rw [len x] at hi
      obtain ⟨b, hb, eb⟩ := owns_some (w.held.own x) hi
      have hc : (l x)[i]? = some (l x)[i] := List.getElem?_eq_getElem hi
      have ho := w.held.over x (l' := (l x).set i (.live v)) (by simp)
      refine ⟨_, _, ?_, w.put ho ((w.alive x).set i rfl) ((w.ref x).set i _)⟩
      have hg : (k.managed && !(l x)[i].alive) = false := by
        by_cases hk : k.managed = true
        · simp [w.alive x hk _ (List.getElem_mem hi)]
        · simp [hk]
      simp only [exec, hb, read_ok eb hc, write_ok eb hi, ok_bind, hg, Bool.false_eq_true, if_false, pure_ok, Heap.over]
    · cases h

theorem run_ok {k : Kind} {d : A} (ops : List (Op A)) {s : State A} {l : Nat → List (Cell A)} {a a' : Arrays A} (w : Shows k s l a)
    (h : Spec.run k d a ops = some a') : ∃ s' l', run k d s ops = .ok s' ∧ Shows k s' l' a' := by
  induction ops generalizing s l a with
  | nil => simp only [Spec.run, Option.some.injEq] at h; subst h; exact ⟨s, l, rfl, w⟩
  | cons op ops ih =>
    simp only [Spec.run] at h
    split at h
    · cases h
    · next a1 h1 =>
      obtain ⟨s1, l1, e1, w1⟩ := exec_ok w h1
      obtain ⟨s2, l2, e2, w2⟩ := ih w1 h
      exact ⟨s2, l2, by simp only [run, e1]; exact e2, w2⟩

theorem shows_start (k : Kind) : Shows k (start : State A) (fun _ => []) (fun _ => []) := by
  refine ⟨⟨fun _ => rfl, ?_, ?_, fun _ _ => rfl⟩, fun _ => Alive.nil, fun _ => List.Forall₂.nil⟩
  · intro x y b h; cases h
  · intro b c h; cases h

end ELC.Arr
