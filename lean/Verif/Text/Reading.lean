import Verif.Text.Lemmas
/-! Lemmas about reading, comparing and searching strings. -/
namespace ELC.Text
open Hash Str Str.Spec StrEdit StrEdit.Spec StrCmp StrCmp.Spec Compare Compare.Spec Search.Spec Spec

section
variable {A : Type} {hc : A → Word} [Inhabited A] [DecidableEq A] {gold : Nat → Nat} {th : Nat}

/-! ### Pointers to the characters -/

theorem copyAll {n : Node A} (w : WF hc n) (r : RangeClear n 0 (chars n).length) :
    copyPart n 0 (chars n).length = some (chars n) := by
  rw [copyPart_clear hc n w _ _ r (by omega), part_all]

theorem cStr_ok (zero : A) : ∀ n : Node A, WF hc n → FlatOk n → cStr zero n = some (chars n ++ [zero]) := by
  intro n
  induction n with
  | null => intro _ _; rfl
  | comn h m => intro _ _; rfl
  | head h m t ts u ih =>
    intro w f
    have w' := w
    simp only [WF] at w
    simp only [FlatOk] at f
    rw [cStr]
    split
    · rename_i hu
      subst hu
      rw [ih w.1 (f.1 rfl)]; simp [chars]
    · rename_i hu
      have hs := size_eq hc _ w'
      have rc := f.2 hu
      simp only [Node.size] at hs
      rw [hs] at rc ⊢
      rw [copyAll w' rc]; rfl
  | endA h m t ts u ih =>
    intro w f
    have w' := w
    simp only [WF] at w
    simp only [FlatOk] at f
    rw [cStr]
    split
    · rename_i hu
      subst hu
      rw [ih w.1 (f.1 rfl)]; simp [chars]
    · rename_i hu
      have hs := size_eq hc _ w'
      have rc := f.2 hu
      simp only [Node.size] at hs
      rw [hs] at rc ⊢
      rw [copyAll w' rc]; rfl
  | const h m => intro w f; simp [cStr, size_eq hc _ w, copyAll w f]
  | substr h t b s => intro w f; simp [cStr, size_eq hc _ w, copyAll w f]
  | sum h x y xs ys => intro w f; simp [cStr, size_eq hc _ w, copyAll w f]
  | erased h t ts p s => intro w f; simp [cStr, size_eq hc _ w, copyAll w f]
  | inserted h t x ts p s => intro w f; simp [cStr, size_eq hc _ w, copyAll w f]
  | same h s v => intro w f; simp [cStr, size_eq hc _ w, copyAll w f]

theorem constCStr_ok (zero : A) : ∀ n : Node A, WF hc n → TextOk n →
    constCStr zero n = some (chars n ++ [zero]) := by
  intro n
  induction n with
  | const h m => intro _ _; rfl
  | substr h t b s ih =>
    intro w f
    have w' := w
    simp only [WF] at w
    simp only [TextOk] at f
    rw [constCStr, size_eq hc t w.1]
    split
    · rename_i hb
      rw [ih w.1 (f.1 hb), Option.bind_some, if_pos (by simp; omega)]
      simp only [chars]
      rw [List.drop_append_of_le_length (by omega), List.take_of_length_le (by simp; omega)]
    · rename_i hb
      refine cStr_ok zero _ w' ?_
      have : (chars (.substr h t b s)).length = s := by simp [chars]; omega
      show RangeClear _ 0 _
      rw [this]; exact f.2 hb
  | null => intro w f; exact cStr_ok zero _ w f
  | comn h m => intro w f; exact cStr_ok zero _ w f
  | head h m t ts u => intro w f; exact cStr_ok zero _ w f
  | endA h m t ts u => intro w f; exact cStr_ok zero _ w f
  | sum h x y xs ys => intro w f; exact cStr_ok zero _ w f
  | erased h t ts p s => intro w f; exact cStr_ok zero _ w f
  | inserted h t x ts p s => intro w f; exact cStr_ok zero _ w f
  | same h s v => intro w f; exact cStr_ok zero _ w f

theorem nodeData_ok (zero : A) : ∀ n : Node A, WF hc n → DataOk n →
    ∃ behind, nodeData zero n = some (chars n ++ behind) := by
  intro n
  induction n with
  | const h m => intro _ _; exact ⟨[], by simp [nodeData, chars]⟩
  | substr h t b s ih =>
    intro w f
    simp only [WF] at w
    obtain ⟨bh, e⟩ := ih w.1 f
    refine ⟨((chars t).drop b).drop s ++ bh, ?_⟩
    rw [nodeData, e, Option.bind_some, if_pos (by simp; omega)]
    rw [List.drop_append_of_le_length (by omega), chars, ← List.append_assoc, List.take_append_drop]
  | null => intro w f; exact ⟨_, cStr_ok zero _ w f⟩
  | comn h m => intro w f; exact ⟨_, cStr_ok zero _ w f⟩
  | head h m t ts u => intro w f; exact ⟨_, cStr_ok zero _ w f⟩
  | endA h m t ts u => intro w f; exact ⟨_, cStr_ok zero _ w f⟩
  | sum h x y xs ys => intro w f; exact ⟨_, cStr_ok zero _ w f⟩
  | erased h t ts p s => intro w f; exact ⟨_, cStr_ok zero _ w f⟩
  | inserted h t x ts p s => intro w f; exact ⟨_, cStr_ok zero _ w f⟩
  | same h s v => intro w f; exact ⟨_, cStr_ok zero _ w f⟩

omit [DecidableEq A] in
theorem flatOk_of_noInserted : ∀ n : Node A, NoInserted n → FlatOk n := by
  intro n
  induction n with
  | head h m t ts u ih => intro ni; exact ⟨fun _ => ih ni, fun _ => rangeClear_of_noInserted (.head h m t ts u) ni _ _⟩
  | endA h m t ts u ih => intro ni; exact ⟨fun _ => ih ni, fun _ => rangeClear_of_noInserted (.endA h m t ts u) ni _ _⟩
  | null => intro _; trivial
  | comn h m => intro _; trivial
  | const h m => intro ni; exact rangeClear_of_noInserted (.const h m) ni _ _
  | substr h t b s => intro ni; exact rangeClear_of_noInserted (.substr h t b s) ni _ _
  | sum h x y xs ys => intro ni; exact rangeClear_of_noInserted (.sum h x y xs ys) ni _ _
  | erased h t ts p s => intro ni; exact rangeClear_of_noInserted (.erased h t ts p s) ni _ _
  | inserted h t x ts p s => intro ni; exact absurd ni id
  | same h s v => intro ni; exact rangeClear_of_noInserted (.same h s v) ni _ _

omit [DecidableEq A] in
theorem dataOk_of_noInserted : ∀ n : Node A, NoInserted n → DataOk n := by
  intro n
  induction n with
  | substr h t b s ih => exact ih
  | const h m => intro _; trivial
  | _ => exact flatOk_of_noInserted _

omit [DecidableEq A] in
theorem textOk_of_noInserted : ∀ n : Node A, NoInserted n → TextOk n := by
  intro n
  induction n with
  | substr h t b s ih => intro ni; exact ⟨fun _ => ih ni, fun _ => rangeClear_of_noInserted (.substr h t b s) ni _ _⟩
  | const h m => intro _; trivial
  | _ => exact flatOk_of_noInserted _

theorem data_ok (zero : A) {t : Text A} (o : Ok hc t) (d : OnNode DataOk t) :
    ∃ behind, data zero t = some (text t ++ behind) := by
  cases t with
  | lit m => exact ⟨_, rfl⟩
  | chr a => exact ⟨[], rfl⟩
  | node n => exact nodeData_ok zero n o d

theorem view_ok (zero : A) {t : Text A} (o : Ok hc t) (d : OnNode DataOk t) :
    view zero t = some (text t) := by
  obtain ⟨bh, e⟩ := data_ok zero o d
  rw [view, e, Option.bind_some, size_text o, if_pos (by simp)]
  simp

/-! ### Substrings of plain strings are plain -/

omit [Inhabited A] [DecidableEq A] in
theorem baseSubstr_plain {n r : Node A} {b s : Nat} (h : baseSubstr n b s = some r) :
    (NoInnerErase n → NoInnerErase r) ∧ (NoEmptyRun n → NoEmptyRun r) := by
  simp only [baseSubstr, mkSubstr, Option.some.injEq] at h
  subst h
  split
  · exact ⟨id, id⟩
  · split
    · exact ⟨fun _ => trivial, fun _ => trivial⟩
    · exact ⟨id, id⟩

omit [Inhabited A] [DecidableEq A] in
theorem getSubstr_plain : ∀ (n : Node A) (b s : Nat) (r : Node A), getSubstr n b s = some r →
    (NoInnerErase n → NoInnerErase r) ∧ (NoEmptyRun n → NoEmptyRun r) := by
  intro n
  induction n with
  | null => intro b s r h; simp only [getSubstr, Option.some.injEq] at h; subst h; exact ⟨id, id⟩
  | comn h m => intro b s r h; exact baseSubstr_plain h
  | const h m =>
    intro b s r e
    simp only [getSubstr, Option.map_eq_some_iff] at e
    obtain ⟨x, _, rfl⟩ := e
    unfold mkConst
    split <;> exact ⟨id, id⟩
  | substr h t sb ss ih =>
    intro b s r e
    simp only [getSubstr, mkSubstr, Option.some.injEq] at e
    subst e
    split
    · exact ⟨fun _ => trivial, fun _ => trivial⟩
    · exact ⟨id, id⟩
  | head h m t ts u ih =>
    intro b s r e
    rw [getSubstr] at e
    split at e
    · exact ih _ _ _ e
    · exact baseSubstr_plain e
  | endA h m t ts u ih =>
    intro b s r e
    rw [getSubstr] at e
    split at e
    · exact ih _ _ _ e
    · exact baseSubstr_plain e
  | sum h x y xs ys ihx ihy =>
    intro b s r e
    rw [getSubstr] at e
    split at e
    · exact ⟨fun n => (ihx _ _ _ e).1 n.1, fun n => (ihx _ _ _ e).2 n.1⟩
    · split at e
      · exact ⟨fun n => (ihy _ _ _ e).1 n.2, fun n => (ihy _ _ _ e).2 n.2⟩
      · exact baseSubstr_plain e
  | erased h t ts p sz ih =>
    intro b s r e
    rw [getSubstr] at e
    split at e
    · exact ⟨fun n => (ih _ _ _ e).1 n.1, fun n => (ih _ _ _ e).2 n⟩
    · split at e
      · exact ⟨fun n => (ih _ _ _ e).1 n.1, fun n => (ih _ _ _ e).2 n⟩
      · exact baseSubstr_plain e
  | inserted h t x ts p sz iht ihx =>
    intro b s r e
    rw [getSubstr] at e
    split at e
    · exact ⟨fun n => (iht _ _ _ e).1 n.1, fun n => (iht _ _ _ e).2 n.1⟩
    · split at e
      · exact ⟨fun n => (iht _ _ _ e).1 n.1, fun n => (iht _ _ _ e).2 n.1⟩
      · split at e
        · exact ⟨fun n => (ihx _ _ _ e).1 n.2, fun n => (ihx _ _ _ e).2 n.2⟩
        · exact baseSubstr_plain e
  | same h sz v =>
    intro b s r e
    simp only [getSubstr, clone, Option.some.injEq] at e
    subst e
    split
    · exact ⟨id, id⟩
    · split
      · exact ⟨fun _ => trivial, fun _ => trivial⟩
      · rename_i h; exact ⟨fun _ => trivial, fun _ => h⟩

omit [Inhabited A] [DecidableEq A] in
/-- A part of a plain string is the empty text or a plain node. -/
theorem substr_plain {t r : Text A} {b s : Nat} (h : substr hc t b s = some r) :
    (r = .lit []) ∨ ∃ n, r = .node n ∧ (OnNode NoInnerErase t → NoInnerErase n) ∧
      (OnNode NoEmptyRun t → NoEmptyRun n) := by
  unfold substr at h
  dsimp only at h
  split at h
  · rw [Option.map_eq_some_iff] at h
    obtain ⟨n, e, rfl⟩ := h
    have := getSubstr_plain _ _ _ _ e
    refine .inr ⟨n, rfl, fun p => this.1 ?_, fun q => this.2 ?_⟩
    · cases t with
      | node m => exact p
      | lit m => trivial
      | chr a => trivial
    · cases t with
      | node m => exact q
      | lit m => trivial
      | chr a => trivial
  · exact .inl (Option.some.inj h).symm

/-! ### Comparing -/

omit [Inhabited A] in
theorem equalN_ok : ∀ (n : Nat) (a b : List A), n ≤ a.length → n ≤ b.length →
    equalN n a b = some (decide (a.take n = b.take n)) := by
  intro n
  induction n with
  | zero => intro a b _ _; simp [equalN]
  | succ n ih =>
    intro a b ha hb
    match a, b with
    | [], _ => simp at ha
    | _ :: _, [] => simp at hb
    | x :: a, y :: b =>
      rw [equalN]
      split
      · rename_i h; simp [h]
      · rename_i h
        rw [ih a b (by simpa using ha) (by simpa using hb)]
        simp only [ne_eq, Decidable.not_not] at h
        simp [h]

omit [Inhabited A] in
theorem equalN_diff : ∀ (n : Nat) (a b : List A) (i : Nat), i < n → i < a.length → i < b.length →
    a[i]? ≠ b[i]? → equalN n a b = some false := by
  intro n
  induction n with
  | zero => intro a b i h; omega
  | succ n ih =>
    intro a b i h ha hb hd
    match a, b with
    | [], _ => simp at ha
    | _ :: _, [] => simp at hb
    | x :: a, y :: b =>
      rw [equalN]
      split
      · rfl
      · rename_i hxy
        cases i with
        | zero => simp at hd; exact absurd hd hxy
        | succ i => exact ih a b i (by omega) (by simpa using ha) (by simpa using hb) (by simpa using hd)

omit [Inhabited A] in
/-- The texts of two strings that are not nodes, compared as far as the first one goes. -/
theorem eqV_short {t : Text A} (s : Short t) (w behind : List A) :
    eqV t w behind = equalN (text t).length (text t) (w ++ behind) := by
  cases t with
  | node n => exact absurd s id
  | _ => rfl

omit [Inhabited A] in
theorem equalN_texts {a w behind : List A}
    (h : a.length = w.length ∨ ∃ i, i < a.length ∧ i < w.length ∧ a[i]? ≠ w[i]?) :
    equalN a.length a (w ++ behind) = some (decide (a = w)) := by
  rcases h with h | ⟨i, h1, h2, h3⟩
  · rw [equalN_ok _ _ _ (by omega) (by simp; omega)]
    rw [List.take_of_length_le (l := a) (by omega), h]
    simp
  · rw [equalN_diff _ _ _ i h1 h1 (by simp; omega)
      (by rw [List.getElem?_append_left h2]; exact h3)]
    have : a ≠ w := by rintro rfl; exact h3 rfl
    simp [this]

omit [Inhabited A] in
theorem equalN_prefix {a w behind : List A} (h : a.length ≤ w.length) :
    equalN a.length a (w ++ behind) = some (decide (a <+: w)) := by
  rw [equalN_ok _ _ _ (by omega) (by simp; omega)]
  rw [List.take_of_length_le (l := a) (by omega), List.take_append_of_le_length h]
  congr 2
  rw [List.prefix_iff_eq_take]

/-! ### Searching -/

omit [Inhabited A] [DecidableEq A] in
theorem isFirstFrom_of_drop {P : A → Prop} {l : List A} {b : Nat} {o : Option Nat}
    (h : IsFirst P (l.drop b) o) : IsFirstFrom P l b (o.map (· + b)) := by
  cases o with
  | none =>
    intro j x hj hx
    refine h x ?_
    refine List.mem_iff_getElem?.mpr ⟨j - b, ?_⟩
    rw [List.getElem?_drop, show b + (j - b) = j by omega, hx]
  | some k =>
    show IsFirstFrom P l b (some (k + b))
    obtain ⟨⟨x, h1, h2⟩, h3⟩ := h
    rw [List.getElem?_drop] at h1
    refine ⟨by omega, ⟨x, by rw [Nat.add_comm]; exact h1, h2⟩, ?_⟩
    intro j hj hk x hx
    refine h3 (j - b) (by omega) x ?_
    rw [List.getElem?_drop, show b + (j - b) = j by omega, hx]

omit [Inhabited A] [DecidableEq A] in
theorem occursAt_drop {p l : List A} {b k : Nat} (hb : b ≤ l.length) :
    OccursAt p (l.drop b) k ↔ OccursAt p l (k + b) := by
  constructor
  · rintro ⟨x, y, e, rfl⟩
    refine ⟨l.take b ++ x, y, ?_, by simp; omega⟩
    have := List.take_append_drop b l
    rw [e] at this
    rw [List.append_assoc, List.append_assoc, ← List.append_assoc x, this]
  · rintro ⟨x, y, e, hx⟩
    refine ⟨x.drop b, y, ?_, by simp; omega⟩
    rw [e, List.append_assoc, List.drop_append_of_le_length (by omega), List.append_assoc]

omit [Inhabited A] [DecidableEq A] in
theorem isFirstOccurrenceFrom_of_drop {p l : List A} {b : Nat} {o : Option Nat} (hb : b ≤ l.length)
    (h : IsFirstOccurrence p (l.drop b) o) : IsFirstOccurrenceFrom p l b (o.map (· + b)) := by
  cases o with
  | none =>
    intro j hj hx
    refine h (j - b) ?_
    rw [occursAt_drop hb, Nat.sub_add_cancel hj]; exact hx
  | some k =>
    show IsFirstOccurrenceFrom p l b (some (k + b))
    obtain ⟨h1, h2⟩ := h
    refine ⟨by omega, (occursAt_drop hb).mp h1, fun j hj hk hx => h2 (j - b) (by omega) ?_⟩
    rw [occursAt_drop hb, Nat.sub_add_cancel hj]; exact hx

theorem findFrom_ok (zero : A) {t : Text A} (o : Ok hc t) (d : OnNode DataOk t) (ch : A) {b : Nat}
    (hb : b ≤ (text t).length) :
    findFrom zero t ch b = some (Search.inRange ch ((text t).drop b)) := by
  rw [findFrom, view_ok zero o d, Option.bind_some, viewFrom, if_pos hb]; rfl

theorem findViewFrom_ok (zero : A) (idx : A → Nat) {pad : List A} {t : Text A} (o : Ok hc t)
    (d : OnNode DataOk t) {p : List A} {b : Nat} (hb : b ≤ (text t).length) (hp : p ≠ []) {z : A}
    (hz : pad.head? = some z) (hzp : z ∉ p) (hpad : p.length ≤ pad.length) :
    ∃ r, findViewFrom zero idx pad t p b = some r ∧ IsFirstOccurrence p ((text t).drop b) r := by
  obtain ⟨r, e, h⟩ := Search.match_padded idx (r := (text t).drop b) hp hz hzp hpad
  refine ⟨r, ?_, h⟩
  rw [findViewFrom, view_ok zero o d, Option.bind_some, viewFrom, if_pos hb, Option.bind_some, e]

theorem findTextFrom_node (zero : A) (idx : A → Nat) {pad : List A} {t : Text A} (o : Ok hc t)
    (d : OnNode DataOk t) {m : Node A} (w : WF hc m) (rc : RangeClear m 0 (chars m).length)
    {b : Nat} (hb : b ≤ (text t).length) (hp : chars m ≠ []) {z : A}
    (hz : pad.head? = some z) (hzp : z ∉ chars m) (hpad : (chars m).length ≤ pad.length) :
    ∃ r, findTextFrom zero idx pad t (.node m) b = some (r.map (· + b)) ∧
      IsFirstOccurrence (chars m) ((text t).drop b) r := by
  obtain ⟨r, e, h⟩ := findViewFrom_ok zero idx o d hb hp hz hzp hpad
  refine ⟨r, ?_, h⟩
  rw [findTextFrom, size_eq hc m w, copyAll w rc, Option.bind_some, e]; rfl

/-! ### Replacing -/

omit [Inhabited A] [DecidableEq A] in
theorem npos_take {l : List A} (h : l.length < 2 ^ 64) : l.take (2 ^ 64 - 1) = l :=
  List.take_of_length_le (by omega)

omit [Inhabited A] [DecidableEq A] in
/-- A part of a string is a node or empty, so it takes over no operand. -/
theorem substr_not_takesOver {t r str : Text A} {b s : Nat} {P : Node A → Prop}
    (h : substr hc t b s = some r) : ¬ TakesOver P th r str := by
  rintro ⟨h1, h2, _⟩
  unfold substr at h
  dsimp only at h
  split at h
  · rw [Option.map_eq_some_iff] at h
    obtain ⟨n, _, rfl⟩ := h
    exact h1
  · rw [← Option.some.inj h] at h2
    exact h2 rfl

theorem replaceTextLoop_ok (hg : ∀ n, n ≤ gold n) (zero : A) (idx : A → Nat) {pad : List A} {t : Text A}
    (o : Ok hc t) (d : OnNode DataOk t) {m : Node A} (w : WF hc m)
    (rc : RangeClear m 0 (chars m).length) (hp : chars m ≠ []) {z : A}
    (hz : pad.head? = some z) (hzp : z ∉ chars m) (hpad : (chars m).length ≤ pad.length)
    {q : List A} (hl : (text t).length < 2 ^ 64) :
    ∀ fuel pos str2 aret, Ok hc str2 → text str2 = q → pos ≤ (text t).length → (text t).length - pos < fuel → Ok hc aret →
    ∃ out, Has hc (replaceTextLoop hc gold th zero idx pad t (.node m) fuel pos str2 aret)
        (text aret ++ out) ∧ ReplaceAll (chars m) q ((text t).drop pos) out := by
  intro fuel
  induction fuel with
  | zero => intro pos str2 aret _ _ _ h; omega
  | succ fuel ih =>
    intro pos str2 aret o2 h2 hpos hf oa
    obtain ⟨r, e, h⟩ := findTextFrom_node zero idx o d w rc hpos hp hz hzp hpad
    rw [replaceTextLoop, e, Option.bind_some]
    cases r with
    | none =>
      refine ⟨(text t).drop pos, ?_, .none h⟩
      dsimp only [Option.map_none]
      refine (substr_ok o (2 ^ 64 - 1) hpos).bind fun s os es => ?_
      rw [npos_take (by simp; omega)] at es
      rw [← es]
      exact pushBackMove_ok hg oa os
    | some k =>
      dsimp only [Option.map_some]
      have hk := Search.occurs_length h.1
      rw [List.length_drop] at hk
      have hm : 0 < (chars m).length := List.length_pos_iff.mpr hp
      obtain ⟨s, es, os, ts⟩ := substr_ok o (wsub (k + pos) pos) hpos
      rw [wsub_eq (by omega), Nat.add_sub_cancel] at ts es
      rw [wsub_eq (by omega), Nat.add_sub_cancel, es, Option.bind_some]
      obtain ⟨s', a', e', ⟨o', t'⟩, oa', _, ka⟩ := pushBack_ok (th := th) hg os o2
      rw [e', Option.bind_some]
      obtain ⟨ar, ea, oar, tar⟩ := pushBackMove_ok (th := th) hg oa o'
      rw [ea, Option.bind_some]
      have hsz : (Text.node m).size = (chars m).length := size_eq hc m w
      rw [hsz]
      obtain ⟨out, ho, hr⟩ := ih (k + pos + (chars m).length) a' ar oa'
        ((ka (substr_not_takesOver es)).trans h2) (by omega) (by omega) oar
      refine ⟨((text t).drop pos).take k ++ q ++ out, ?_, .some h ?_⟩
      · refine ho.congr ?_
        rw [tar, t', ts, h2]; simp
      · rw [List.drop_drop, show pos + (k + (chars m).length) = k + pos + (chars m).length by omega]
        exact hr

theorem replaceLoop_none (hg : ∀ n, n ≤ gold n) (zero : A) {t : Text A} (o : Ok hc t)
    (d : OnNode DataOk t) {ch : A} {str : Text A} (hl : (text t).length < 2 ^ 64) {fuel pos : Nat}
    {aret : Text A} (hpos : pos ≤ (text t).length) (oa : Ok hc aret) (h : ch ∉ (text t).drop pos) :
    Has hc (replaceLoop hc gold th zero t ch (fuel + 1) pos str aret) (text aret ++ (text t).drop pos) := by
  rw [replaceLoop, findFrom_ok zero o d ch hpos, Option.bind_some]
  have hf := (Search.in_range_correct ch ((text t).drop pos)).1
  cases hi : Search.inRange ch ((text t).drop pos) with
  | some k =>
    rw [hi] at hf
    obtain ⟨⟨x, h1, rfl⟩, _⟩ := hf
    exact absurd (List.mem_of_getElem? h1) h
  | none =>
    dsimp only
    refine (substr_ok o (2 ^ 64 - 1) hpos).bind fun s os es => ?_
    rw [npos_take (by simp; omega)] at es
    rw [← es]
    exact pushBackMove_ok hg oa os

end
end ELC.Text
