import Verif.StrCmp.Model
import Verif.StrCmp.Spec
import Verif.Str.Lemmas
namespace ELC.StrCmp
open Str Str.Spec Hash Compare Compare.Spec Spec
set_option linter.unusedSectionVars false
variable {A : Type} [Inhabited A] [DecidableEq A]

theorem equalN_eq : ∀ (k : Nat) (a b : List A), k ≤ a.length → k ≤ b.length →
    equalN k a b = some (decide (a.take k = b.take k)) := by
  intro k
  induction k with
  | zero => intro a b _ _; simp [equalN]
  | succ k ih =>
    intro a b ha hb
    match a, b with
    | x :: a, y :: b =>
      simp only [List.length_cons] at ha hb
      simp only [equalN, List.take_succ_cons, List.cons.injEq]
      by_cases h : x = y
      · rw [if_neg (by simp [h]), ih a b (by omega) (by omega)]; simp [h]
      · rw [if_pos h]; simp [h]
    | [], _ => simp at ha
    | _ :: _, [] => simp at hb

/-- The result at the first difference. -/
def lexO (cmp : A → A → Ordering) : List A → List A → Ordering
  | x :: a, y :: b => if cmp x y ≠ .eq then cmp x y else lexO cmp a b
  | _, _ => .eq

theorem compareN_eq (cmp : A → A → Ordering) : ∀ (k : Nat) (a b : List A), k ≤ a.length →
    k ≤ b.length → compareN cmp k a b = some (lexO cmp (a.take k) (b.take k)) := by
  intro k
  induction k with
  | zero => intro a b _ _; simp [compareN, lexO]
  | succ k ih =>
    intro a b ha hb
    match a, b with
    | x :: a, y :: b =>
      simp only [List.length_cons] at ha hb
      simp only [compareN, List.take_succ_cons, lexO]
      split
      · rfl
      · rw [ih a b (by omega) (by omega)]
    | [], _ => simp at ha
    | _ :: _, [] => simp at hb

theorem lexO_append (cmp : A → A → Ordering) : ∀ (a a' b b' : List A), a.length = a'.length →
    lexO cmp (a ++ b) (a' ++ b') = if lexO cmp a a' ≠ .eq then lexO cmp a a' else lexO cmp b b' := by
  intro a
  induction a with
  | nil => intro a' b b' h; match a' with | [] => simp [lexO]
  | cons x a ih =>
    intro a' b b' h
    match a' with
    | y :: a' =>
      simp only [List.length_cons, Nat.add_right_cancel_iff] at h
      simp only [List.cons_append, lexO]
      split
      · rename_i hx; simp [hx]
      · exact ih a' b b' h

theorem lexO_byLength (cmp : A → A → Ordering) {a b : List A} (h : a.length = b.length) :
    ByLength cmp a b (lexO cmp a b) := by
  obtain ⟨o, ho, hs⟩ := (compare_sized_correct cmp a b).1 a.length (Nat.le_refl _) (by omega)
  rw [compareN_eq cmp _ _ _ (Nat.le_refl _) (by omega), List.take_length, h, List.take_length] at ho
  have := Option.some.inj ho
  rw [this]
  exact Or.inr (Or.inr ⟨h, hs⟩)

/-- The array `a` is what lies at position `index` of the characters. -/
def Cur (n : Node A) (index : Nat) (a : List A) : Prop :=
  ∃ k, a = part (chars n) index k ∧ index + k ≤ (chars n).length ∧
    (index < (chars n).length → 0 < k) ∧ StartOk n (index + k)

theorem cur_length {n : Node A} {i : Nat} {a : List A} (c : Cur n i a) :
    a = part (chars n) i a.length ∧ i + a.length ≤ (chars n).length ∧
      (i < (chars n).length → 0 < a.length) ∧ StartOk n (i + a.length) := by
  obtain ⟨k, rfl, h1, h2, h3⟩ := c
  rw [length_part h1]; exact ⟨rfl, h1, h2, h3⟩

theorem block_cur {hc : A → Word} {n : Node A} (w : WF hc n) (q : Sequential n) {i : Nat}
    (hi : i ≤ (chars n).length) (st : StartOk n i) : ∃ a, block n i = some a ∧ Cur n i a := by
  obtain ⟨k, hk, h1, h2, h3⟩ := block_ok hc n w q i hi st
  exact ⟨_, hk, k, rfl, h1, h2, h3⟩

theorem advance_cur {hc : A → Word} {n : Node A} (w : WF hc n) (q : Sequential n) {i step : Nat}
    {a : List A} (c : Cur n i a) (hs : step ≤ a.length) :
    ∃ a', advance n a step (i + step) = some a' ∧ Cur n (i + step) a' := by
  obtain ⟨h0, h1, h2, h3⟩ := cur_length c
  unfold advance
  split
  · rename_i e; rw [e] at h1 h3; exact block_cur w q h1 h3
  · refine ⟨_, rfl, a.length - step, ?_, by omega, by omega, ?_⟩
    · conv_lhs => rw [h0]
      simp only [part, List.drop_take, List.drop_drop]
    · rw [show i + step + (a.length - step) = i + a.length by omega]; exact h3

theorem cur_take {n : Node A} {i step : Nat} {a : List A} (c : Cur n i a) (hs : step ≤ a.length) :
    a.take step = part (chars n) i step := by
  obtain ⟨h0, _⟩ := cur_length c
  conv_lhs => rw [h0]
  rw [take_part, Nat.min_eq_left hs]

theorem part_out {l : List A} {p n : Nat} (h : l.length ≤ p) : part l p n = [] := by
  simp [part, List.drop_eq_nil_of_le h]

theorem part_step (l : List A) {p n k : Nat} (h : k ≤ n) :
    part l p n = part l p k ++ part l (p + k) (n - k) := by
  rw [← part_split, Nat.add_sub_cancel' h]

theorem append_eq_iff {a a' b b' : List A} (h : a.length = a'.length) :
    a ++ b = a' ++ b' ↔ a = a' ∧ b = b' :=
  ⟨fun e => List.append_inj e h, fun ⟨e1, e2⟩ => by rw [e1, e2]⟩

theorem eqLoop_ok {hc : A → Word} {n m : Node A} (wn : WF hc n) (wm : WF hc m)
    (qn : Sequential n) (qm : Sequential m) : ∀ (size index : Nat) (a b : List A),
    Cur n index a → Cur m index b →
    min size ((chars n).length - index) = min size ((chars m).length - index) →
    eqLoop n m a b index size =
      some (decide (part (chars n) index size = part (chars m) index size)) := by
  intro size
  induction size using Nat.strong_induction_on with
  | _ size ih =>
    intro index a b ca cb hm
    obtain ⟨_, a1, a2, _⟩ := cur_length ca
    obtain ⟨_, b1, b2, _⟩ := cur_length cb
    rw [eqLoop]
    split
    · rename_i h; subst h; simp [part_zero]
    · rename_i hsz
      dsimp only
      split
      · rename_i h0
        have hlen : (chars n).length ≤ index ∧ (chars m).length ≤ index := by
          by_cases h1 : index < (chars n).length
          · have := a2 h1
            by_cases h2 : index < (chars m).length
            · have := b2 h2; omega
            · omega
          · by_cases h2 : index < (chars m).length
            · have := b2 h2; omega
            · omega
        rw [if_pos (by omega), part_out hlen.1, part_out hlen.2]; simp
      · rename_i h0
        rw [equalN_eq _ _ _ (by omega) (by omega), Option.bind_some, cur_take ca (by omega),
          cur_take cb (by omega)]
        generalize hstep : min (min a.length b.length) size = step at *
        have hle : step ≤ size := by omega
        have hl : (part (chars n) index step).length = (part (chars m) index step).length := by
          rw [length_part (by omega), length_part (by omega)]
        rw [part_step (chars n) hle, part_step (chars m) hle]
        simp only [append_eq_iff hl]
        by_cases he : part (chars n) index step = part (chars m) index step
        · rw [if_neg (by simp [he])]
          obtain ⟨a', ea, ca'⟩ := advance_cur wn qn ca (step := step) (by omega)
          obtain ⟨b', eb, cb'⟩ := advance_cur wm qm cb (step := step) (by omega)
          rw [ea, Option.bind_some, eb, Option.bind_some]
          split
          · rename_i h
            obtain ⟨_, _, a2', _⟩ := cur_length ca'
            obtain ⟨_, _, b2', _⟩ := cur_length cb'
            have l1 : (chars n).length ≤ index + step := by
              by_cases h1 : index + step < (chars n).length
              · have := a2' h1; omega
              · omega
            have l2 : (chars m).length ≤ index + step := by
              by_cases h1 : index + step < (chars m).length
              · have := b2' h1; omega
              · omega
            rw [part_out l1, part_out l2]; simp [he]
          · rw [ih (size - step) (by omega) (index + step) a' b' ca' cb' (by omega)]
            simp [he]
        · rw [if_pos (by simp [he])]; simp [he]

theorem eqRange_ok {hc : A → Word} {n m : Node A} (wn : WF hc n) (wm : WF hc m)
    {pos size : Nat} (rn : ReadsFrom n pos) (rm : ReadsFrom m pos)
    (hn : pos ≤ (chars n).length) (hm' : pos ≤ (chars m).length)
    (hm : min size ((chars n).length - pos) = min size ((chars m).length - pos)) :
    eqRange n m pos size = some (decide (part (chars n) pos size = part (chars m) pos size)) := by
  obtain ⟨a, ea, ca⟩ := block_cur wn rn.1 hn rn.2
  obtain ⟨b, eb, cb⟩ := block_cur wm rm.1 hm' rm.2
  rw [eqRange, ea, Option.bind_some, eb, Option.bind_some]
  exact eqLoop_ok wn wm rn.1 rm.1 size pos a b ca cb hm

theorem eqRange_whole {hc : A → Word} {n m : Node A} (wn : WF hc n) (wm : WF hc m)
    (qn : Sequential n) (qm : Sequential m) {size : Nat} (hs : size = (chars n).length)
    (hl : (chars n).length = (chars m).length) :
    eqRange n m 0 size = some (decide (chars n = chars m)) := by
  rw [eqRange_ok wn wm ⟨qn, startOk_zero n⟩ ⟨qm, startOk_zero m⟩ (by omega) (by omega) (by omega), hs, part_all, hl,
    part_all]

theorem cacheOf_ok {hc : A → Word} {n : Node A} (w : WF hc n) {v : Word} (h : cacheOf n = some v) :
    v = hashOf hc (chars n) := by
  cases n <;> simp only [cacheOf] at h <;> simp only [WF] at w
  · simp at h
  · exact w v h
  · exact w v h
  · exact w.2.2 v h
  · exact w.2.2.2 v h
  · exact w.2.2.2 v h
  · exact w.2.2.2.2 v h
  · exact w.2.2.2 v h
  · exact w.2.2.2.2.2 v h
  · exact w v h

theorem cachesDiffer_ne {hc : A → Word} {n m : Node A} (wn : WF hc n) (wm : WF hc m)
    (h : cachesDiffer n m = true) : chars n ≠ chars m := by
  intro e
  unfold cachesDiffer at h
  split at h
  · rename_i a b ha hb
    rw [cacheOf_ok wn ha, cacheOf_ok wm hb, e] at h; simp at h
  · simp at h

theorem cacheIf {hc : A → Word} {n m : Node A} (wn : WF hc n) (wm : WF hc m) {r : Option Bool}
    (hr : r = some (decide (chars n = chars m))) :
    (if cachesDiffer n m then some false else r) = some (decide (chars n = chars m)) := by
  split
  · rename_i h; simp [cachesDiffer_ne wn wm h]
  · exact hr

theorem andR_decide {p q : Prop} [Decidable p] [Decidable q] :
    andR (some (decide p)) (some (decide q)) = some (decide (p ∧ q)) := by
  by_cases hp : p <;> by_cases hq : q <;> simp [andR, hp, hq]

theorem some_decide {p q : Prop} [Decidable p] [Decidable q] (h : p ↔ q) :
    some (decide p) = some (decide q) := by rw [decide_eq_decide.mpr h]

theorem eqBase_ok (hc : A → Word) : ∀ n m : Node A, WF hc n → WF hc m → EqReady n m →
    (chars n).length = (chars m).length → eqBase n m = some (decide (chars n = chars m)) := by
  intro n
  induction n with
  | null =>
    intro m wn wm r hl
    have r' : Sequential (.null : Node A) ∧ Sequential m := by cases m <;> exact r
    have e : eqBase .null m = eqRange .null m 0 0 := by cases m <;> rfl
    rw [e]; exact eqRange_whole wn wm r'.1 r'.2 rfl hl
  | comn h a =>
    intro m wn wm r hl
    cases m
    case comn h' a' =>
      simp only [chars] at hl ⊢
      rw [eqBase, equalSized, if_pos hl, equalN_eq _ _ _ (Nat.le_refl _) (by omega), List.take_length, hl,
        List.take_length]
      exact some_decide Iff.rfl
    all_goals
      simp only [EqReady] at r
      exact eqRange_whole wn wm r.1 r.2 (size_eq hc _ wn) hl
  | const h a =>
    intro m wn wm r hl
    cases m
    case const h' a' =>
      simp only [chars] at hl ⊢
      rw [eqBase, equalN_eq _ _ _ (Nat.le_refl _) (by omega), List.take_length, hl,
        List.take_length]
      exact some_decide Iff.rfl
    all_goals
      simp only [EqReady] at r
      exact eqRange_whole wn wm r.1 r.2 (size_eq hc _ wn) hl
  | same h s v =>
    intro m wn wm r hl
    cases m
    case same h' s' v' =>
      simp only [EqReady] at r
      simp only [chars, List.length_replicate] at hl ⊢
      subst hl
      simp only [eqBase]
      rcases Nat.eq_zero_or_pos s with h0 | h0
      · subst h0
        have : v = v' := by rcases r with r | r; exact absurd rfl r; exact r
        simp [this]
      · have : List.replicate s v = List.replicate s v' ↔ v = v' := by
          rw [List.replicate_inj]; constructor
          · rintro ⟨_, h | h⟩; omega; exact h
          · intro h; exact ⟨rfl, Or.inr h⟩
        simp [this]
    all_goals
      simp only [EqReady] at r
      exact eqRange_whole wn wm r.1 r.2 (size_eq hc _ wn) hl
  | substr h t b s ih =>
    intro m wn wm r hl
    cases m
    case substr h' t' b' s' =>
      have h1 := size_eq hc _ wn
      have h2 := size_eq hc _ wm
      simp only [EqReady] at r
      simp only [eqBase]
      split
      · rename_i e; subst e
        simp only [WF] at wn wm
        obtain ⟨r1, r2⟩ := r.1 rfl
        simp only [Node.size] at h1 h2
        rw [eqRange_ok wn.1 wm.1 r1 r2 (by omega) (by omega) (by omega)]
        have : s = s' := by omega
        subst this; rfl
      · rename_i e
        exact eqRange_whole wn wm (r.2 e).1 (r.2 e).2 h1 hl
    all_goals
      simp only [EqReady] at r
      exact eqRange_whole wn wm r.1 r.2 (size_eq hc _ wn) hl
  | head h a t ts u ih =>
    intro m wn wm r hl
    cases m
    case head h' a' t' ts' u' =>
      have h1 := size_eq hc _ wn
      have h2 := size_eq hc _ wm
      simp only [EqReady] at r
      simp only [eqBase]
      split
      · rename_i e; subst e
        simp only [WF] at wn wm
        simp only [Node.size] at h1 h2
        have l1 : (a.drop (a.length - u)).length = u := by simp only [List.length_drop]; omega
        have l2 : (a'.drop (a'.length - u)).length = u := by simp only [List.length_drop]; omega
        have p1 : part a (a.length - u) u = a.drop (a.length - u) := by
          simp only [part]; exact List.take_of_length_le (by omega)
        have p2 : part a' (a'.length - u) u = a'.drop (a'.length - u) := by
          simp only [part]; exact List.take_of_length_le (by omega)
        rw [slice_ok (by omega), Option.bind_some, slice_ok (by omega), Option.bind_some, p1, p2,
          equalN_eq _ _ _ (by omega) (by omega), List.take_of_length_le (by omega), List.take_of_length_le (by omega),
          cacheIf wn.1 wm.1 (ih t' wn.1 wm.1 (r.1 rfl) (by omega)), andR_decide]
        refine some_decide ?_
        simp only [chars]
        exact (append_eq_iff (by omega)).symm
      · rename_i e
        exact eqRange_whole wn wm (r.2 e).1 (r.2 e).2 h1 hl
    all_goals
      simp only [EqReady] at r
      exact eqRange_whole wn wm r.1 r.2 (size_eq hc _ wn) hl
  | endA h a t ts u ih =>
    intro m wn wm r hl
    cases m
    case endA h' a' t' ts' u' =>
      have h1 := size_eq hc _ wn
      have h2 := size_eq hc _ wm
      simp only [EqReady] at r
      simp only [eqBase]
      split
      · rename_i e; subst e
        simp only [WF] at wn wm
        simp only [Node.size] at h1 h2
        rw [equalN_eq _ _ _ (by omega) (by omega),
          cacheIf wn.1 wm.1 (ih t' wn.1 wm.1 (r.1 rfl) (by omega)), andR_decide]
        refine some_decide ?_
        simp only [chars]
        exact (append_eq_iff (by omega)).symm
      · rename_i e
        exact eqRange_whole wn wm (r.2 e).1 (r.2 e).2 h1 hl
    all_goals
      simp only [EqReady] at r
      exact eqRange_whole wn wm r.1 r.2 (size_eq hc _ wn) hl
  | sum h x y xs ys ihx ihy =>
    intro m wn wm r hl
    cases m
    case sum h' x' y' xs' ys' =>
      have h1 := size_eq hc _ wn
      have h2 := size_eq hc _ wm
      simp only [EqReady] at r
      simp only [eqBase]
      split
      · rename_i e; subst e
        simp only [WF] at wn wm
        simp only [Node.size] at h1 h2
        rw [cacheIf wn.1 wm.1 (ihx x' wn.1 wm.1 (r.1 rfl).1 (by omega)),
          cacheIf wn.2.1 wm.2.1 (ihy y' wn.2.1 wm.2.1 (r.1 rfl).2 (by omega)), andR_decide]
        refine some_decide ?_
        simp only [chars]
        exact (append_eq_iff (by omega)).symm
      · rename_i e
        exact eqRange_whole wn wm (r.2 e).1 (r.2 e).2 h1 hl
    all_goals
      simp only [EqReady] at r
      exact eqRange_whole wn wm r.1 r.2 (size_eq hc _ wn) hl
  | erased h t ts p s ih =>
    intro m wn wm r hl
    cases m
    case erased h' t' ts' p' s' =>
      have h1 := size_eq hc _ wn
      have h2 := size_eq hc _ wm
      simp only [EqReady] at r
      simp only [eqBase]
      split
      · rename_i e
        obtain ⟨r1, r2⟩ := r.1 e
        obtain ⟨rfl, rfl⟩ := e
        simp only [WF] at wn wm
        simp only [Node.size] at h1 h2
        rw [eqRange_ok wn.1 wm.1 ⟨r1.1, startOk_zero _⟩ ⟨r2.1, startOk_zero _⟩ (by omega) (by omega) (by omega),
          eqRange_ok wn.1 wm.1 r1 r2 (by omega) (by omega) (by omega), andR_decide]
        refine some_decide ?_
        simp only [chars]
        have l1 : ((chars t).take p).length = ((chars t').take p).length := by
          simp only [List.length_take]; omega
        have d1 : part (chars t) (p + s) ts = (chars t).drop (p + s) := by
          simp only [part]; exact List.take_of_length_le (by simp only [List.length_drop]; omega)
        have d2 : part (chars t') (p + s) ts = (chars t').drop (p + s) := by
          simp only [part]; exact List.take_of_length_le (by simp only [List.length_drop]; omega)
        rw [d1, d2, append_eq_iff l1]; simp only [part, List.drop_zero]
      · rename_i e
        exact eqRange_whole wn wm (r.2 e).1 (r.2 e).2 h1 hl
    all_goals
      simp only [EqReady] at r
      exact eqRange_whole wn wm r.1 r.2 (size_eq hc _ wn) hl
  | inserted h t i ts p s iht ihi =>
    intro m wn wm r hl
    cases m
    case inserted h' t' i' ts' p' s' =>
      have h1 := size_eq hc _ wn
      have h2 := size_eq hc _ wm
      simp only [EqReady] at r
      simp only [eqBase]
      split
      · rename_i e
        obtain ⟨r1, r2⟩ := r.1 e
        obtain ⟨rfl, rfl⟩ := e
        simp only [WF] at wn wm
        simp only [Node.size] at h1 h2
        rw [cacheIf wn.2.1 wm.2.1 (ihi i' wn.2.1 wm.2.1 r1 (by omega)),
          cacheIf wn.1 wm.1 (iht t' wn.1 wm.1 r2 (by omega)), andR_decide]
        refine some_decide ?_
        simp only [chars]
        have l1 : ((chars t).take p).length = ((chars t').take p).length := by
          simp only [List.length_take]; omega
        rw [List.append_assoc, List.append_assoc, append_eq_iff l1, append_eq_iff (by omega)]
        constructor
        · rintro ⟨e1, e2⟩; rw [e1, e2]; exact ⟨rfl, rfl, rfl⟩
        · rintro ⟨e1, e2, e3⟩
          refine ⟨e2, ?_⟩
          rw [← List.take_append_drop p (chars t), e1, e3, List.take_append_drop]
      · rename_i e
        exact eqRange_whole wn wm (r.2 e).1 (r.2 e).2 h1 hl
    all_goals
      simp only [EqReady] at r
      exact eqRange_whole wn wm r.1 r.2 (size_eq hc _ wn) hl

theorem cur_nil {n : Node A} {i : Nat} {a : List A} (c : Cur n i a) (h : a.length = 0) :
    (chars n).length ≤ i := by
  obtain ⟨_, _, a2, _⟩ := cur_length c
  by_cases h1 : i < (chars n).length
  · have := a2 h1; omega
  · omega

theorem cmpLoop_ok {cmp : A → A → Ordering} {hc : A → Word} {n m : Node A} (wn : WF hc n) (wm : WF hc m)
    (qn : Sequential n) (qm : Sequential m) : ∀ (size index : Nat) (a b : List A),
    Cur n index a → Cur m index b →
    min (size + 1) ((chars n).length - index) = min (size + 1) ((chars m).length - index) →
    cmpLoop cmp n m a b index size =
      some (lexO cmp (part (chars n) index size) (part (chars m) index size)) := by
  intro size
  induction size using Nat.strong_induction_on with
  | _ size ih =>
    intro index a b ca cb hm
    obtain ⟨_, a1, a2, _⟩ := cur_length ca
    obtain ⟨_, b1, b2, _⟩ := cur_length cb
    rw [cmpLoop]
    split
    · rename_i h; subst h; simp [part_zero, lexO]
    · rename_i hsz
      dsimp only
      rw [compareN_eq _ _ _ _ (by omega) (by omega), Option.bind_some, cur_take ca (by omega),
        cur_take cb (by omega)]
      generalize hstep : min (min a.length b.length) size = step at *
      have hle : step ≤ size := by omega
      have hl : (part (chars n) index step).length = (part (chars m) index step).length := by
        rw [length_part (by omega), length_part (by omega)]
      rw [part_step (chars n) hle, part_step (chars m) hle, lexO_append cmp _ _ _ _ hl]
      by_cases he : lexO cmp (part (chars n) index step) (part (chars m) index step) = .eq
      · rw [if_neg (by simp [he]), if_neg (by simp [he])]
        obtain ⟨a', ea, ca'⟩ := advance_cur wn qn ca (step := step) (by omega)
        obtain ⟨b', eb, cb'⟩ := advance_cur wm qm cb (step := step) (by omega)
        rw [ea, Option.bind_some, eb, Option.bind_some]
        obtain ⟨_, a1', a2', _⟩ := cur_length ca'
        obtain ⟨_, b1', b2', _⟩ := cur_length cb'
        split
        · rename_i h
          have l1 : a'.length = 0 ∧ b'.length = 0 := by
            rcases h with h | h
            · have := cur_nil ca' h; omega
            · have := cur_nil cb' h; omega
          rw [part_out (cur_nil ca' l1.1), part_out (cur_nil cb' l1.2), l1.1, l1.2]; rfl
        · rename_i h
          have h0 : step ≠ 0 := by
            intro h0
            subst h0
            have : a.length = 0 ∨ b.length = 0 := by omega
            rcases this with h' | h'
            · have := cur_nil ca h'; omega
            · have := cur_nil cb h'; omega
          rw [dif_neg h0, ih (size - step) (by omega) (index + step) a' b' ca' cb' (by omega)]
      · rw [if_pos he, if_pos he]

theorem cmpRange_ok {cmp : A → A → Ordering} {hc : A → Word} {n m : Node A} (wn : WF hc n) (wm : WF hc m)
    {pos size : Nat} (rn : ReadsFrom n pos) (rm : ReadsFrom m pos)
    (hn : pos ≤ (chars n).length) (hm' : pos ≤ (chars m).length)
    (hm : min (size + 1) ((chars n).length - pos) = min (size + 1) ((chars m).length - pos)) :
    cmpRange cmp n m pos size = some (lexO cmp (part (chars n) pos size) (part (chars m) pos size)) := by
  obtain ⟨a, ea, ca⟩ := block_cur wn rn.1 hn rn.2
  obtain ⟨b, eb, cb⟩ := block_cur wm rm.1 hm' rm.2
  rw [cmpRange, ea, Option.bind_some, eb, Option.bind_some]
  exact cmpLoop_ok wn wm rn.1 rm.1 size pos a b ca cb hm

theorem cmpRange_whole {cmp : A → A → Ordering} {hc : A → Word} {n m : Node A} (wn : WF hc n) (wm : WF hc m)
    (qn : Sequential n) (qm : Sequential m) {size : Nat} (hs : size = (chars n).length)
    (hl : (chars n).length = (chars m).length) :
    cmpRange cmp n m 0 size = some (lexO cmp (chars n) (chars m)) := by
  rw [cmpRange_ok wn wm ⟨qn, startOk_zero n⟩ ⟨qm, startOk_zero m⟩ (by omega) (by omega) (by omega), hs, part_all, hl,
    part_all]

theorem thenR_append {cmp : A → A → Ordering} {a a' b b' : List A} (h : a.length = a'.length) :
    thenR (some (lexO cmp a a')) (some (lexO cmp b b')) = some (lexO cmp (a ++ b) (a' ++ b')) := by
  rw [lexO_append cmp _ _ _ _ h, thenR, Option.bind_some]
  split <;> rfl

theorem lexO_replicate {cmp : A → A → Ordering} {s : Nat} {v v' : A} (h : s ≠ 0) :
    lexO cmp (List.replicate s v) (List.replicate s v') = cmp v v' := by
  induction s with
  | zero => exact absurd rfl h
  | succ s ih =>
    simp only [List.replicate_succ, lexO]
    split
    · rfl
    · rename_i hx
      rcases Nat.eq_zero_or_pos s with h0 | h0
      · subst h0; simp only [ne_eq, Decidable.not_not] at hx; rw [hx]; rfl
      · exact ih (by omega)

theorem cmpBase_ok {cmp : A → A → Ordering} (hrefl : ∀ x, cmp x x = .eq) (hc : A → Word) :
    ∀ n m : Node A, WF hc n → WF hc m → CmpReady n m →
    (chars n).length = (chars m).length → cmpBase cmp n m = some (lexO cmp (chars n) (chars m)) := by
  intro n
  induction n with
  | null =>
    intro m wn wm r hl
    have r' : Sequential (.null : Node A) ∧ Sequential m := by cases m <;> exact r
    have e : cmpBase cmp .null m = cmpRange cmp .null m 0 0 := by cases m <;> rfl
    rw [e]; exact cmpRange_whole wn wm r'.1 r'.2 rfl hl
  | comn h a =>
    intro m wn wm r hl
    cases m
    case comn h' a' =>
      simp only [chars] at hl ⊢
      have : ¬ compare a.length a'.length ≠ .eq := by simp [hl]
      rw [cmpBase, compareSized, if_neg this, compareN_eq _ _ _ _ (Nat.le_refl _) (by omega), List.take_length, hl,
        List.take_length]
    all_goals
      simp only [CmpReady] at r
      exact cmpRange_whole wn wm r.1 r.2 (size_eq hc _ wn) hl
  | const h a =>
    intro m wn wm r hl
    cases m
    case const h' a' =>
      simp only [chars] at hl ⊢
      rw [cmpBase, compareN_eq _ _ _ _ (Nat.le_refl _) (by omega), List.take_length, hl,
        List.take_length]
    all_goals
      simp only [CmpReady] at r
      exact cmpRange_whole wn wm r.1 r.2 (size_eq hc _ wn) hl
  | same h s v =>
    intro m wn wm r hl
    cases m
    case same h' s' v' =>
      simp only [CmpReady] at r
      simp only [chars, List.length_replicate] at hl ⊢
      subst hl
      simp only [cmpBase]
      rcases Nat.eq_zero_or_pos s with h0 | h0
      · subst h0
        have : v = v' := by rcases r with r | r; exact absurd rfl r; exact r
        simp [this, hrefl, lexO]
      · rw [lexO_replicate (by omega)]
    all_goals
      simp only [CmpReady] at r
      exact cmpRange_whole wn wm r.1 r.2 (size_eq hc _ wn) hl
  | substr h t b s ih =>
    intro m wn wm r hl
    cases m
    case substr h' t' b' s' =>
      have h1 := size_eq hc _ wn
      have h2 := size_eq hc _ wm
      simp only [CmpReady] at r
      simp only [cmpBase]
      split
      · rename_i e; subst e
        simp only [WF] at wn wm
        obtain ⟨r1, r2, r3⟩ := r.1 rfl
        simp only [Node.size] at h1 h2
        rw [cmpRange_ok wn.1 wm.1 r1 r2 (by omega) (by omega) (by omega)]
        have : s = s' := by omega
        subst this; rfl
      · rename_i e
        exact cmpRange_whole wn wm (r.2 e).1 (r.2 e).2 h1 hl
    all_goals
      simp only [CmpReady] at r
      exact cmpRange_whole wn wm r.1 r.2 (size_eq hc _ wn) hl
  | head h a t ts u ih =>
    intro m wn wm r hl
    cases m
    case head h' a' t' ts' u' =>
      have h1 := size_eq hc _ wn
      have h2 := size_eq hc _ wm
      simp only [CmpReady] at r
      simp only [cmpBase]
      split
      · rename_i e; subst e
        simp only [WF] at wn wm
        simp only [Node.size] at h1 h2
        have l1 : (a.drop (a.length - u)).length = u := by simp only [List.length_drop]; omega
        have l2 : (a'.drop (a'.length - u)).length = u := by simp only [List.length_drop]; omega
        have p1 : part a (a.length - u) u = a.drop (a.length - u) := by
          simp only [part]; exact List.take_of_length_le (by omega)
        have p2 : part a' (a'.length - u) u = a'.drop (a'.length - u) := by
          simp only [part]; exact List.take_of_length_le (by omega)
        rw [slice_ok (by omega), Option.bind_some, slice_ok (by omega), Option.bind_some, p1, p2,
          compareN_eq _ _ _ _ (by omega) (by omega), List.take_of_length_le (by omega), List.take_of_length_le (by omega),
          ih t' wn.1 wm.1 (r.1 rfl) (by omega), thenR_append (by omega)]
        rfl
      · rename_i e
        exact cmpRange_whole wn wm (r.2 e).1 (r.2 e).2 h1 hl
    all_goals
      simp only [CmpReady] at r
      exact cmpRange_whole wn wm r.1 r.2 (size_eq hc _ wn) hl
  | endA h a t ts u ih =>
    intro m wn wm r hl
    cases m
    case endA h' a' t' ts' u' =>
      have h1 := size_eq hc _ wn
      have h2 := size_eq hc _ wm
      simp only [CmpReady] at r
      simp only [cmpBase]
      split
      · rename_i e; subst e
        simp only [WF] at wn wm
        simp only [Node.size] at h1 h2
        rw [compareN_eq _ _ _ _ (by omega) (by omega),
          ih t' wn.1 wm.1 (r.1 rfl) (by omega), thenR_append (by omega)]
        rfl
      · rename_i e
        exact cmpRange_whole wn wm (r.2 e).1 (r.2 e).2 h1 hl
    all_goals
      simp only [CmpReady] at r
      exact cmpRange_whole wn wm r.1 r.2 (size_eq hc _ wn) hl
  | sum h x y xs ys ihx ihy =>
    intro m wn wm r hl
    cases m
    case sum h' x' y' xs' ys' =>
      have h1 := size_eq hc _ wn
      have h2 := size_eq hc _ wm
      simp only [CmpReady] at r
      simp only [cmpBase]
      split
      · rename_i e; subst e
        simp only [WF] at wn wm
        simp only [Node.size] at h1 h2
        rw [ihx x' wn.1 wm.1 (r.1 rfl).1 (by omega), ihy y' wn.2.1 wm.2.1 (r.1 rfl).2 (by omega),
          thenR_append (by omega)]
        rfl
      · rename_i e
        exact cmpRange_whole wn wm (r.2 e).1 (r.2 e).2 h1 hl
    all_goals
      simp only [CmpReady] at r
      exact cmpRange_whole wn wm r.1 r.2 (size_eq hc _ wn) hl
  | erased h t ts p s ih =>
    intro m wn wm r hl
    cases m
    case erased h' t' ts' p' s' =>
      have h1 := size_eq hc _ wn
      have h2 := size_eq hc _ wm
      simp only [CmpReady] at r
      simp only [cmpBase]
      split
      · rename_i e
        obtain ⟨r1, r2⟩ := r.1 e
        obtain ⟨rfl, rfl⟩ := e
        simp only [WF] at wn wm
        simp only [Node.size] at h1 h2
        have d1 : part (chars t) (p + s) ts = (chars t).drop (p + s) := by
          simp only [part]; exact List.take_of_length_le (by simp only [List.length_drop]; omega)
        have d2 : part (chars t') (p + s) ts = (chars t').drop (p + s) := by
          simp only [part]; exact List.take_of_length_le (by simp only [List.length_drop]; omega)
        rw [cmpRange_ok wn.1 wm.1 ⟨r1.1, startOk_zero _⟩ ⟨r2.1, startOk_zero _⟩ (by omega) (by omega) (by omega),
          cmpRange_ok wn.1 wm.1 r1 r2 (by omega) (by omega) (by omega),
          thenR_append (by rw [length_part (by omega), length_part (by omega)]), d1, d2]
        simp only [part, List.drop_zero, chars]
      · rename_i e
        exact cmpRange_whole wn wm (r.2 e).1 (r.2 e).2 h1 hl
    all_goals
      simp only [CmpReady] at r
      exact cmpRange_whole wn wm r.1 r.2 (size_eq hc _ wn) hl
  | inserted h t i ts p s iht ihi =>
    intro m wn wm r hl
    cases m
    case inserted h' t' i' ts' p' s' =>
      have h1 := size_eq hc _ wn
      have h2 := size_eq hc _ wm
      simp only [CmpReady] at r
      simp only [cmpBase]
      split
      · rename_i e
        obtain ⟨r0, r1, r2, r3⟩ := r.1 e
        obtain ⟨rfl, rfl⟩ := e
        simp only [WF] at wn wm
        simp only [Node.size] at h1 h2
        have hw : ts - p ≤ wsub ts (p + s) := by unfold wsub; split <;> omega
        have d1 : part (chars t) p (wsub ts (p + s)) = (chars t).drop p := by
          simp only [part]; exact List.take_of_length_le (by simp only [List.length_drop]; omega)
        have d2 : part (chars t') p (wsub ts (p + s)) = (chars t').drop p := by
          simp only [part]; exact List.take_of_length_le (by simp only [List.length_drop]; omega)
        rw [cmpRange_ok wn.1 wm.1 ⟨r1.1, startOk_zero _⟩ ⟨r2.1, startOk_zero _⟩ (by omega) (by omega) (by omega),
          cmpRange_ok wn.1 wm.1 r1 r2 (by omega) (by omega) (by omega),
          ihi i' wn.2.1 wm.2.1 r0 (by omega), thenR_append (by omega),
          thenR_append (by rw [length_part (by omega), length_part (by omega)]), d1, d2]
        simp only [part, List.drop_zero, chars, List.append_assoc]
      · rename_i e
        exact cmpRange_whole wn wm (r.2 e).1 (r.2 e).2 h1 hl
    all_goals
      simp only [CmpReady] at r
      exact cmpRange_whole wn wm r.1 r.2 (size_eq hc _ wn) hl

/-! ### Against a view -/

theorem drop_step {l : List A} {i k : Nat} : l.drop i = part l i k ++ l.drop (i + k) := by
  simp only [part, ← List.drop_drop, List.take_append_drop]

theorem eqViewLoop_ok {hc : A → Word} {n : Node A} {v : List A} (wn : WF hc n)
    (qn : Sequential n) (hl : (chars n).length = v.length) : ∀ (size index : Nat) (a : List A),
    Cur n index a → size = v.length - index → index ≤ v.length →
    eqViewLoop n v a index size = some (decide ((chars n).drop index = v.drop index)) := by
  intro size
  induction size using Nat.strong_induction_on with
  | _ size ih =>
    intro index a ca hs hi
    obtain ⟨_, a1, a2, _⟩ := cur_length ca
    rw [eqViewLoop]
    rw [equalN_eq _ _ _ (by omega) (by simp only [List.length_drop]; omega), Option.bind_some, cur_take ca (by omega)]
    have hstep' : min (min a.length (v.length - index)) size = a.length := by omega
    rw [hstep']
    generalize hstep : a.length = step at *
    have hl' : (part (chars n) index step).length = (part v index step).length := by
      rw [length_part (by omega), length_part (by omega)]
    rw [drop_step (l := chars n) (i := index) (k := step)]
    have : ((part (chars n) index step ++ (chars n).drop (index + step) = v.drop index)) ↔
        (part (chars n) index step = (v.drop index).take step ∧ (chars n).drop (index + step) = v.drop (index + step)) := by
      rw [drop_step (l := v) (i := index) (k := step), append_eq_iff hl']; simp only [part]
      rw [List.take_append_of_le_length (by simp only [List.length_take, List.length_drop]; omega)]
      rw [List.take_take, Nat.min_self]
    simp only [this]
    by_cases he : part (chars n) index step = (v.drop index).take step
    · rw [if_neg (by simp [he])]
      obtain ⟨a', ea, ca'⟩ := advance_cur wn qn ca (step := step) (by omega)
      obtain ⟨_, a1', a2', _⟩ := cur_length ca'
      rw [ea, Option.bind_some]
      split
      · rename_i h
        have hend : (chars n).length ≤ index + step := by
          rcases h with h | h
          · exact cur_nil ca' h
          · omega
        have hv : v.drop (index + step) = [] := List.drop_eq_nil_of_le (by omega)
        rw [List.drop_eq_nil_of_le hend, hv]
        refine some_decide ?_
        constructor
        · intro _; exact ⟨he, rfl⟩
        · intro _; omega
      · rename_i h
        have h0 : step ≠ 0 := by
          intro h0
          have := cur_nil ca (by omega); omega
        rw [dif_neg h0, ih (size - step) (by omega) (index + step) a' ca' (by omega) (by omega)]
        simp [he]
    · rw [if_pos (by simp [he])]; simp [he]

theorem cmpViewLoop_ok {cmp : A → A → Ordering} {hc : A → Word} {n : Node A} {v : List A} (wn : WF hc n)
    (qn : Sequential n) (hl : (chars n).length = v.length) : ∀ (size index : Nat) (a : List A),
    Cur n index a → size = v.length - index → index ≤ v.length →
    cmpViewLoop cmp n v a index size = some (lexO cmp ((chars n).drop index) (v.drop index)) := by
  intro size
  induction size using Nat.strong_induction_on with
  | _ size ih =>
    intro index a ca hs hi
    obtain ⟨_, a1, a2, _⟩ := cur_length ca
    rw [cmpViewLoop]
    rw [compareN_eq _ _ _ _ (by omega) (by simp only [List.length_drop]; omega), Option.bind_some, cur_take ca (by omega)]
    have hstep' : min (min a.length (v.length - index)) size = a.length := by omega
    rw [hstep']
    generalize hstep : a.length = step at *
    have hl' : (part (chars n) index step).length = (part v index step).length := by
      rw [length_part (by omega), length_part (by omega)]
    have e2 : (v.drop index).take step = part v index step := rfl
    rw [e2, drop_step (l := chars n) (i := index) (k := step), drop_step (l := v) (i := index) (k := step),
      lexO_append _ _ _ _ _ hl']
    by_cases he : lexO cmp (part (chars n) index step) (part v index step) = .eq
    · rw [if_neg (by simp [he]), if_neg (by simp [he])]
      obtain ⟨a', ea, ca'⟩ := advance_cur wn qn ca (step := step) (by omega)
      obtain ⟨_, a1', a2', _⟩ := cur_length ca'
      rw [ea, Option.bind_some]
      split
      · rename_i h
        have hend : (chars n).length ≤ index + step := by
          rcases h with h | h
          · exact cur_nil ca' h
          · omega
        rw [List.drop_eq_nil_of_le hend]
        have z1 : a'.length = 0 := by omega
        have z2 : size - step = 0 := by omega
        rw [z1, z2]; rfl
      · rename_i h
        have h0 : step ≠ 0 := by
          intro h0
          have := cur_nil ca (by omega); omega
        rw [dif_neg h0, ih (size - step) (by omega) (index + step) a' ca' (by omega) (by omega)]
    · rw [if_pos he, if_pos he]

/-! ### Against a zero-terminated text -/

theorem terminated_drop {zero : A} {s mem : List A} (h : Terminated zero s mem) {i : Nat} (hi : i ≤ s.length) :
    Terminated zero (s.drop i) (mem.drop i) := by
  obtain ⟨h1, rest, rfl⟩ := h
  refine ⟨fun hm => h1 (List.mem_of_mem_drop hm), rest, ?_⟩
  rw [List.drop_append_of_le_length hi]

theorem terminated_get {zero : A} {s mem : List A} (h : Terminated zero s mem) {i : Nat} (hi : i ≤ s.length) :
    ∃ c, mem[i]? = some c ∧ (c = zero ↔ i = s.length) := by
  obtain ⟨h1, rest, rfl⟩ := h
  rcases Nat.lt_or_ge i s.length with hlt | hge
  · refine ⟨s[i], by rw [List.getElem?_append_left hlt]; simp [hlt], ?_⟩
    constructor
    · intro e; exact absurd (e ▸ List.getElem_mem hlt) h1
    · intro e; omega
  · have : i = s.length := by omega
    subst this
    exact ⟨zero, by simp, by simp⟩

theorem eqZeroLoop_ok {hc : A → Word} {zero : A} {n : Node A} {s mem : List A} (wn : WF hc n)
    (qn : Sequential n) (ht : Terminated zero s mem) : ∀ (size index : Nat) (a : List A),
    Cur n index a → size = (chars n).length - index → index < (chars n).length → index ≤ s.length →
    eqZeroLoop zero n mem a index size = some (decide ((chars n).drop index = s.drop index)) := by
  intro size
  induction size using Nat.strong_induction_on with
  | _ size ih =>
    intro index a ca hs hi hi'
    obtain ⟨a0, a1, a2, _⟩ := cur_length ca
    have apos := a2 hi
    rw [eqZeroLoop]
    obtain ⟨c, ec, hcz⟩ := terminated_get ht hi'
    rw [ec]
    dsimp only
    split
    · rename_i hz
      have : s.drop index = [] := List.drop_eq_nil_of_le (by have := hcz.mp hz; omega)
      rw [this]
      have : (chars n).drop index ≠ [] := by simp only [ne_eq, List.drop_eq_nil_iff]; omega
      simp [this]
    · rename_i hz
      have hstep' : min a.length size = a.length := by omega
      rw [hstep', equalPart_spec a.length a _ _ rfl (terminated_drop ht hi'), Option.bind_some]
      have hd : (chars n).drop index = a ++ (chars n).drop (index + a.length) := by
        conv_rhs => lhs; rw [a0]
        exact drop_step
      by_cases hp : a <+: s.drop index
      · rw [if_neg (by simp [hp])]
        obtain ⟨a', ea, ca'⟩ := advance_cur wn qn ca (step := a.length) (Nat.le_refl _)
        obtain ⟨_, a1', a2', _⟩ := cur_length ca'
        rw [ea, Option.bind_some]
        have hlen := hp.length_le
        simp only [List.length_drop] at hlen
        obtain ⟨r, hr⟩ := hp
        have hr' : r = s.drop (index + a.length) := by
          rw [← List.drop_drop, ← hr, List.drop_left]
        have hsd : s.drop index = a ++ s.drop (index + a.length) := by rw [← hr', hr]
        obtain ⟨d, ed, hdz⟩ := terminated_get ht (i := index + a.length) (by omega)
        rw [ed]
        dsimp only
        have key : ((chars n).drop index = s.drop index) ↔
            (chars n).drop (index + a.length) = s.drop (index + a.length) := by
          rw [hd, hsd, List.append_cancel_left_eq]
        split
        · rename_i hz'
          refine some_decide ?_
          rw [key, List.drop_eq_nil_of_le (as := s) (by have := hdz.mp hz'; omega), List.drop_eq_nil_iff]
          constructor
          · intro h; exact cur_nil ca' h
          · intro h; omega
        · rename_i hz'
          split
          · rename_i h0
            refine some_decide ?_
            rw [key, List.drop_eq_nil_of_le (as := chars n) (cur_nil ca' h0)]
            constructor
            · intro h; exact absurd h hz'
            · intro h
              have := List.drop_eq_nil_iff.mp h.symm
              exact hdz.mpr (by omega)
          · rename_i h0
            rw [dif_neg (by omega), ih (size - a.length) (by omega) _ a' ca' (by omega) (by omega) (by omega)]
            exact some_decide key.symm
      · rw [if_pos (by simp [hp])]
        have : (chars n).drop index ≠ s.drop index := by
          intro e; exact hp ⟨_, hd.symm.trans e⟩
        simp [this]

theorem comparePart_eq {cmp : A → A → Ordering} (hz : ∀ x y, cmp x y = .eq ↔ x = y) {zero : A} {a s mem : List A}
    (ht : Terminated zero s mem) :
    ∃ o, comparePart cmp zero a a.length mem = some o ∧ (o = .eq ↔ a <+: s) := by
  obtain ⟨o, ho, hb⟩ := (compare_part_correct cmp a ht).1
  refine ⟨o, ho, ?_⟩
  have hlen : (s.take a.length).length ≤ a.length := by simp only [List.length_take]; omega
  rw [List.prefix_iff_eq_take]
  constructor
  · intro h; subst h
    rcases hb with ⟨_, h⟩ | ⟨_, h⟩ | ⟨hl, ⟨i, _, _, x, y, _, _, _, h⟩ | ⟨hs, _⟩⟩
    · cases h
    · cases h
    · exact absurd rfl h
    · refine List.ext_getElem hl ?_
      intro i h1 h2
      obtain ⟨x, y, e1, e2, e3⟩ := hs i h1
      rw [List.getElem?_eq_getElem h1] at e1
      rw [List.getElem?_eq_getElem h2] at e2
      rw [Option.some.inj e1, Option.some.inj e2]; exact (hz x y).mp e3
  · intro h
    rcases hb with ⟨hl, _⟩ | ⟨hl, _⟩ | ⟨hl, ⟨i, hi, _, x, y, e1, e2, e3, e4⟩ | ⟨_, h'⟩⟩
    · rw [← h] at hl; omega
    · rw [← h] at hl; omega
    · rw [← h, e1] at e2
      have := Option.some.inj e2; subst this
      exact absurd (e3.trans ((hz x x).mpr rfl)) e4
    · exact h'

theorem cmpZeroLoop_ok {cmp : A → A → Ordering} (hcmp : ∀ x y, cmp x y = .eq ↔ x = y) {hc : A → Word} {zero : A} {n : Node A} {s mem : List A} (wn : WF hc n)
    (qn : Sequential n) (ht : Terminated zero s mem) : ∀ (size index : Nat) (a : List A),
    Cur n index a → size = (chars n).length - index → index < (chars n).length → index ≤ s.length →
    ∃ o, cmpZeroLoop cmp zero n mem a index size = some o ∧ (o = .eq ↔ (chars n).drop index = s.drop index) := by
  intro size
  induction size using Nat.strong_induction_on with
  | _ size ih =>
    intro index a ca hs hi hi'
    obtain ⟨a0, a1, a2, _⟩ := cur_length ca
    have apos := a2 hi
    rw [cmpZeroLoop]
    obtain ⟨c, ec, hcz⟩ := terminated_get ht hi'
    rw [ec]
    dsimp only
    split
    · rename_i hz
      refine ⟨_, rfl, ?_⟩
      have : s.drop index = [] := List.drop_eq_nil_of_le (by have := hcz.mp hz; omega)
      rw [this]
      have : (chars n).drop index ≠ [] := by simp only [ne_eq, List.drop_eq_nil_iff]; omega
      simp only [reduceCtorEq, this]
    · rename_i hz
      have hstep' : min a.length size = a.length := by omega
      obtain ⟨o, ho, hoe⟩ := comparePart_eq hcmp (a := a) (terminated_drop ht hi')
      rw [hstep', ho, Option.bind_some]
      have hd : (chars n).drop index = a ++ (chars n).drop (index + a.length) := by
        conv_rhs => lhs; rw [a0]
        exact drop_step
      by_cases hp : a <+: s.drop index
      · rw [if_neg (by simp [hoe.mpr hp])]
        obtain ⟨a', ea, ca'⟩ := advance_cur wn qn ca (step := a.length) (Nat.le_refl _)
        obtain ⟨_, a1', a2', _⟩ := cur_length ca'
        rw [ea, Option.bind_some]
        have hlen := hp.length_le
        simp only [List.length_drop] at hlen
        obtain ⟨r, hr⟩ := hp
        have hr' : r = s.drop (index + a.length) := by
          rw [← List.drop_drop, ← hr, List.drop_left]
        have hsd : s.drop index = a ++ s.drop (index + a.length) := by rw [← hr', hr]
        obtain ⟨d, ed, hdz⟩ := terminated_get ht (i := index + a.length) (by omega)
        rw [ed]
        dsimp only
        have key : ((chars n).drop index = s.drop index) ↔
            (chars n).drop (index + a.length) = s.drop (index + a.length) := by
          rw [hd, hsd, List.append_cancel_left_eq]
        rw [key]
        split
        · rename_i h0
          refine ⟨_, rfl, ?_⟩
          rw [List.drop_eq_nil_of_le (as := chars n) (cur_nil ca' h0)]
          constructor
          · intro h
            split at h
            · rename_i hz'; have := hdz.mp hz'; rw [List.drop_eq_nil_of_le (by omega)]
            · cases h
          · intro h
            have := List.drop_eq_nil_iff.mp h.symm
            rw [if_pos (hdz.mpr (by omega))]
        · rename_i h0
          split
          · rename_i hz'
            refine ⟨_, rfl, ?_⟩
            have hsn : s.drop (index + a.length) = [] := List.drop_eq_nil_of_le (by have := hdz.mp hz'; omega)
            rw [hsn, List.drop_eq_nil_iff]
            simp only [reduceCtorEq, false_iff]; omega
          · rename_i hz'
            rw [dif_neg (by omega)]
            exact ih (size - a.length) (by omega) _ a' ca' (by omega) (by omega) (by omega)
      · have hne : o ≠ .eq := fun h => hp (hoe.mp h)
        rw [if_pos hne]
        refine ⟨o, rfl, ?_⟩
        have : (chars n).drop index ≠ s.drop index := by
          intro e; exact hp ⟨_, hd.symm.trans e⟩
        simp only [hne, this]

end ELC.StrCmp
