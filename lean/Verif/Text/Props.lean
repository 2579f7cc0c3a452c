import Verif.Text.Reading
import Verif.Str.Props
/-!
Properties C63-C72: strings as the user has them.

`Ok hc t` says that the string is in order, `text t` are its characters.  `hc` hashes a character,
`gold` is how buffers grow, `th` is the size from which a compile-time text gets a node.
-/
namespace ELC.Text
open Hash Str Str.Spec StrEdit StrEdit.Spec StrCmp StrCmp.Spec Compare Compare.Spec Search.Spec Spec

section
variable {A : Type} {hc : A → Word} [Inhabited A] [DecidableEq A] {gold : Nat → Nat} {th : Nat}

/-! ### C63: storage is not visible -/

/-- **C63 (reading).** -/
theorem read_correct {t : Text A} (o : Ok hc t) :
    t.size = (text t).length ∧ ∀ i, i < (text t).length → get t i = (text t)[i]? := by
  refine ⟨size_text o, fun i hi => ?_⟩
  cases t with
  | lit m => rfl
  | chr a =>
    have : i = 0 := by simp [text] at hi; exact hi
    subst this; rfl
  | node n => exact arec_eq hc n o i hi

/-- **C63 (substrings).** Any size; a size past the end is cut. -/
theorem substring_correct {t : Text A} (o : Ok hc t) {b : Nat} (s : Nat) (hb : b ≤ (text t).length) :
    ∃ r, substr hc t b s = some r ∧ Ok hc r ∧ text r = ((text t).drop b).take s := substr_ok o s hb

/-- **C63 (a repeated character).** -/
theorem of_run_correct (size : Nat) (ch : A) :
    Ok hc (ofRun size ch) ∧ text (ofRun size ch) = List.replicate size ch :=
  ⟨by intro w h; simp [fresh] at h, rfl⟩

/-- **C63 (resizing with a fill character).** -/
theorem resize_with_correct (hg : ∀ n, n ≤ gold n) {t : Text A} (o : Ok hc t) (n : Nat) (ch : A) :
    ∃ r, resizeWith hc gold t n ch = some r ∧ Ok hc r ∧
      text r = (text t).take n ++ List.replicate (n - (text t).length) ch := by
  unfold resizeWith
  rw [size_text o]
  split
  · rename_i h
    obtain ⟨r, e, or, tr⟩ := substr_ok o n (Nat.zero_le _)
    exact ⟨r, e, or, by rw [tr]; simp [Nat.sub_eq_zero_of_le (Nat.le_of_lt h)]⟩
  · rename_i h
    split
    · rename_i h'
      subst h'
      exact ⟨t, rfl, o, by simp⟩
    · split
      · obtain ⟨w, e⟩ := fin_ok (hc := hc) o false
        dsimp only
        rw [size_eq hc _ w, e]
        have hl : (List.replicate (n - (text t).length) ch).length ≤
            (blank (A := A) (gold ((text t).length + (n - (text t).length)))).length := by
          have := hg ((text t).length + (n - (text t).length))
          simp [blank]; omega
        rw [overwrite_ok (by omega)]
        refine ⟨_, rfl, ⟨w, by rw [e], ?_, by intro w h; simp [fresh] at h⟩, ?_⟩
        · simp only [List.length_append, List.length_replicate]
          omega
        · show chars (fin hc false t) ++ List.take (n - (text t).length) _ = _
          rw [e, List.take_of_length_le (l := text t) (by omega)]
          simp
      · rename_i h0
        have : text t = [] := List.length_eq_zero_iff.mp (by omega)
        refine ⟨ofRun n ch, rfl, (of_run_correct n ch).1, ?_⟩
        rw [this]; simp [ofRun, text, chars]

/-- **C63 (resizing).** The characters that are kept and the new length; what is put behind them is
not said. -/
theorem resize_correct (hg : ∀ n, n ≤ gold n) {t : Text A} (o : Ok hc t) (n : Nat) :
    ∃ r new, resize hc gold t n = some r ∧ Ok hc r ∧ text r = (text t).take n ++ new ∧
      (text r).length = n := by
  unfold resize
  rw [size_text o]
  split
  · rename_i h
    obtain ⟨r, e, or, tr⟩ := substr_ok o n (Nat.zero_le _)
    refine ⟨r, [], e, or, by rw [tr]; simp, ?_⟩
    rw [tr]; simp; omega
  · rename_i h
    split
    · rename_i h'
      exact ⟨t, [], rfl, o, by rw [List.take_of_length_le (by omega)]; simp, h'⟩
    · split
      · obtain ⟨w, e⟩ := fin_ok (hc := hc) o false
        dsimp only
        rw [size_eq hc _ w, e]
        have := hg ((text t).length + (n - (text t).length))
        refine ⟨_, (blank (gold ((text t).length + (n - (text t).length)))).take
          (n - (text t).length), rfl, ⟨w, by rw [e], ?_, by intro w h; simp [fresh] at h⟩, ?_, ?_⟩
        · simp only [blank, List.length_replicate]; omega
        · show chars (fin hc false t) ++ List.take (n - (text t).length) _ = _
          rw [e, List.take_of_length_le (l := text t) (by omega)]
        · show (chars (fin hc false t) ++ List.take (n - (text t).length) _).length = _
          rw [e]; simp [blank]; omega
      · rename_i h0
        have : text t = [] := List.length_eq_zero_iff.mp (by omega)
        refine ⟨_, blank n, rfl, by intro w h; simp [fresh] at h, by rw [this]; simp [text, chars], ?_⟩
        simp [text, chars, blank]

/-- **C63 (padding).** -/
theorem pad_correct (hg : ∀ n, n ≤ gold n) {t : Text A} (o : Ok hc t) (size : Nat) (ch : A) :
    (∃ r, padLeft hc gold th t size ch = some r ∧ Ok hc r ∧
      text r = List.replicate (size - (text t).length) ch ++ text t) ∧
    ∃ r, padRight hc gold th t size ch = some r ∧ Ok hc r ∧
      text r = text t ++ List.replicate (size - (text t).length) ch := by
  unfold padLeft padRight
  rw [size_text o]
  split
  · rename_i h
    rw [Nat.sub_eq_zero_of_le h]
    exact ⟨⟨t, rfl, o, by simp⟩, t, rfl, o, by simp⟩
  · obtain ⟨o', e'⟩ := of_run_correct (hc := hc) (size - (text t).length) ch
    constructor
    · obtain ⟨r, a, e, ⟨w, tr⟩, _⟩ := pushBack_ok (th := th) hg o' o
      exact ⟨r, by rw [e]; rfl, w, by rw [tr, e']⟩
    · rw [← e']
      exact plus_ok hg o o'

/-- **C63 (edits of a string that has no node yet).** Every edit in range is right. -/
theorem edit_short_correct (hg : ∀ n, n ≤ gold n) {t : Text A} (s : Short t) {e : Edit A}
    (hr : InRange hc (text t).length e) :
    ∃ r, edit hc gold t e = some r ∧ Ok hc r ∧ text r = onList (text t) e := by
  have o : Ok hc t := by cases t <;> trivial
  have key : ∀ b, Safe (fin hc b t) e → ∃ r, (runEdit gold (fin hc b t) e).map Text.node = some r ∧
      Ok hc r ∧ text r = onList (text t) e := by
    intro b hs
    obtain ⟨w, ec⟩ := fin_ok (hc := hc) o b
    rw [← ec] at hr ⊢
    exact Has.of (runEdit_ok hg w hr hs)
  cases t with
  | node n => exact absurd s id
  | lit m =>
    cases e with
    | assign i a => exact key true trivial
    | _ => exact key false trivial
  | chr a =>
    cases e with
    | assign i a => exact key true trivial
    | _ => exact key false trivial

/-- **C63 (edits of a string with a node).** On the trees of C45. -/
theorem edit_partial (hg : ∀ n, n ≤ gold n) {n : Node A} (w : WF hc n) {e : Edit A}
    (hr : InRange hc (chars n).length e) (hs : Safe n e) :
    ∃ r, edit hc gold (.node n) e = some r ∧ Ok hc r ∧ text r = onList (chars n) e := by
  have : edit hc gold (.node n) e = (runEdit gold n e).map .node := by cases e <;> rfl
  rw [this]
  exact Has.of (runEdit_ok hg w hr hs)

/-- C63 is false of other trees: a compile-time text and a string made by adding a character, with the same characters, differ
after the same insertion. -/
theorem storage_refuted : ∃ a b b' r s : Text Nat, Ok (fun _ => 0#64) a ∧ Ok (fun _ => 0#64) b ∧ text a = [1, 2, 3] ∧
    edit (fun _ => 0#64) id b (.pushBack [3]) = some b' ∧ text b' = [1, 2, 3] ∧ Ok (fun _ => 0#64) b' ∧
    edit (fun _ => 0#64) id a (.insert 1 [9]) = some r ∧ text r = [1, 9, 2, 3] ∧
    edit (fun _ => 0#64) id b' (.insert 1 [9]) = some s ∧ text s = [9, 1, 2, 3] :=
  ⟨.lit [1, 2, 3], .node (.comn fresh [1, 2]), _, _, _, trivial, by simp [Ok, WF, CacheOk, fresh], rfl, rfl, by decide,
    by simp [Ok, WF, CacheOk, fresh, chars, fin, Node.size], rfl, by decide, rfl, by decide⟩

/-- **C63 (inserting a string).** -/
theorem insert_text_partial (hg : ∀ n, n ≤ gold n) (zero : A) {t str : Text A} (o : Ok hc t)
    (os : Ok hc str) {pos : Nat} (hp : pos ≤ (text t).length) (d : OnNode DataOk str)
    (s : OnNode (fun n => InsertSafe n pos (text str).length) t) :
    ∃ r, insert hc gold zero t pos str = some r ∧ Ok hc r ∧
      text r = (text t).take pos ++ text str ++ (text t).drop pos := by
  rw [insert, view_ok zero os d, Option.bind_some]
  obtain ⟨w, e⟩ := fin_ok (hc := hc) o false
  refine Has.of ?_
  rw [← e] at hp ⊢
  refine insertV_ok hg _ _ pos w hp ?_
  cases t with
  | node n => exact s
  | lit m => trivial
  | chr a => trivial

/-! ### C65: adding strings -/

/-- **C65 (views).** Characters added to a string, and the sum of a string and characters. -/
theorem push_view_correct (hg : ∀ n, n ≤ gold n) {t : Text A} (o : Ok hc t) (str : List A) :
    (∃ r, pushBackV hc gold t str = some r ∧ Ok hc r ∧ text r = text t ++ str) ∧
    (∃ r, pushFrontV hc gold t str = some r ∧ Ok hc r ∧ text r = str ++ text t) ∧
    (∃ r, plusV hc gold t str = some r ∧ Ok hc r ∧ text r = text t ++ str) ∧
    ∃ r, vPlus hc gold str t = some r ∧ Ok hc r ∧ text r = str ++ text t :=
  ⟨pushBackV_ok hg o str, pushFrontV_ok hg o str, plusV_ok hg o str⟩

/-- **C65 (repeated characters).** -/
theorem push_run_correct (hg : ∀ n, n ≤ gold n) {t : Text A} (o : Ok hc t) (ch : A) (count : Nat) :
    (∃ r, pushBackRun hc gold t ch count = some r ∧ Ok hc r ∧
      text r = text t ++ List.replicate count ch) ∧
    ∃ r, pushFrontRun hc gold t ch count = some r ∧ Ok hc r ∧
      text r = List.replicate count ch ++ text t := pushRun_ok hg o ch count

/-- **C65 (sums).** -/
theorem plus_correct (hg : ∀ n, n ≤ gold n) {t str : Text A} (o : Ok hc t) (os : Ok hc str) :
    (∃ r, plus hc gold th t str = some r ∧ Ok hc r ∧ text r = text t ++ text str) ∧
    ∃ r, pushBackMove hc gold th t str = some r ∧ Ok hc r ∧ text r = text t ++ text str :=
  ⟨plus_ok hg o os, pushBackMove_ok hg o os⟩

/-- **C65 (`+=` and `push_front` of a string).** The string is right.  The operand keeps its
characters except when a short string takes over its node: then it gets those of the sum. -/
theorem push_string_characterised (hg : ∀ n, n ≤ gold n) {t str : Text A} (o : Ok hc t)
    (os : Ok hc str) :
    (∃ r a, pushBack hc gold th t str = some (r, a) ∧ (Ok hc r ∧ text r = text t ++ text str) ∧
      Ok hc a ∧ (TakesOver GrowsAtFront th t str → text a = text t ++ text str) ∧
      (¬ TakesOver GrowsAtFront th t str → text a = text str)) ∧
    ∃ r a, pushFront hc gold th t str = some (r, a) ∧ (Ok hc r ∧ text r = text str ++ text t) ∧
      Ok hc a ∧ (TakesOver GrowsAtBack th t str → text a = text str ++ text t) ∧
      (¬ TakesOver GrowsAtBack th t str → text a = text str) :=
  ⟨pushBack_ok hg o os, pushFront_ok hg o os⟩

/-- **C65 (the operand).** It is unchanged when it has another owner, when the string is empty or
has a node, or is long enough to get one. -/
theorem push_string_operand_partial (hg : ∀ n, n ≤ gold n) {t str : Text A} (o : Ok hc t)
    (os : Ok hc str)
    (h : ¬ Short t ∨ text t = [] ∨ th ≤ (text t).length ∨ Short str ∨
      OnNode (fun n => n.uniq = false) str) :
    (∃ r a, pushBack hc gold th t str = some (r, a) ∧ text r = text t ++ text str ∧
      text a = text str) ∧
    ∃ r a, pushFront hc gold th t str = some (r, a) ∧ text r = text str ++ text t ∧
      text a = text str := by
  have key : ∀ P : Node A → Prop, (∀ n : Node A, n.uniq = false → ¬ P n) →
      ¬ TakesOver P th t str := by
    rintro P hP ⟨h1, h2, h3, m, rfl, hm⟩
    rcases h with h | h | h | h | h
    · exact h h1
    · exact h2 h
    · omega
    · exact h
    · exact hP m h hm
  obtain ⟨⟨r, a, e, ⟨_, tr⟩, _, _, k⟩, r', a', e', ⟨_, tr'⟩, _, _, k'⟩ :=
    push_string_characterised (th := th) hg o os
  refine ⟨⟨r, a, e, tr, k (key _ ?_)⟩, r', a', e', tr', k' (key _ ?_)⟩
  · intro n hn; cases n <;> simp_all [GrowsAtFront, Node.uniq]
  · intro n hn; cases n <;> simp_all [GrowsAtBack, Node.uniq]

/-- **C65.** After a string was appended to another or put in front of it, no string takes the operand's storage for its
own alone, so a later write to one of them copies it first. -/
theorem push_string_shares (t str r s : Text A)
    (h : pushBack hc gold th t str = some (r, s) ∨ pushFront hc gold th t str = some (r, s)) :
    ∀ n, s = .node n → n.uniq = false := by
  rintro n rfl
  rcases h with h | h
  all_goals
    first | unfold pushBack at h | unfold pushFront at h
    split at h
    · obtain ⟨x, _, e⟩ := Option.map_eq_some_iff.1 h
      injection e with _ e; injection e with e; rw [← e]; exact share_uniq _
    · obtain ⟨v, _, h⟩ := Option.bind_eq_some_iff.1 h
      split at h
      all_goals
        obtain ⟨x, _, e⟩ := Option.map_eq_some_iff.1 h
        injection e with _ e; injection e with e; rw [← e]; exact share_uniq _
    · obtain ⟨v, hv, h⟩ := Option.bind_eq_some_iff.1 h
      obtain ⟨x, _, e⟩ := Option.map_eq_some_iff.1 h
      injection e with _ e; rw [e] at hv; cases hv


/-- **C65 (a string added to itself).** Right unless it is a single character without a node; then
the character is read after it has been overwritten. -/
theorem self_add_characterised (hg : ∀ n, n ≤ gold n) {t : Text A} (o : Ok hc t) :
    (¬ OneChar t ∨ th ≤ 1 →
      (∃ r, plusSelf hc gold th t = some r ∧ Ok hc r ∧ text r = text t ++ text t) ∧
      ∃ r, pushBackSelf hc gold th t = some r ∧ Ok hc r ∧ text r = text t ++ text t) ∧
    (OneChar t → 1 < th → plusSelf hc gold th t = none ∧ pushBackSelf hc gold th t = none) :=
  ⟨selfAdd_ok hg o, selfAdd_none⟩

/-! ### C66: hashing -/

/-- **C66 (hash).** The hash of a compile-time text and of a node is that of the characters as an
array; that of a single character is the hash of the character. -/
theorem hash_characterised {t : Text A} (o : Ok hc t)
    (rc : OnNode (fun n => RangeClear n 0 (chars n).length) t) :
    (¬ OneChar t → hash hc t = some (Hash.Spec.arrayHash hc (text t))) ∧
    ∀ a, t = .chr a → hash hc t = some (hc a) := by
  refine ⟨fun h => ?_, by rintro a rfl; rfl⟩
  cases t with
  | lit m => exact congrArg some (hashArray_hashOf hc m)
  | chr a => exact absurd trivial h
  | node n => exact hash_clear_partial o rc

/-- **C66 (equal strings hash equally).** When neither is a single character without a node. -/
theorem hash_agrees_partial {t u : Text A} (o : Ok hc t) (ou : Ok hc u)
    (rt : OnNode (fun n => RangeClear n 0 (chars n).length) t)
    (ru : OnNode (fun n => RangeClear n 0 (chars n).length) u) (ht : ¬ OneChar t) (hu : ¬ OneChar u)
    (e : text t = text u) : hash hc t = hash hc u := by
  rw [(hash_characterised o rt).1 ht, (hash_characterised ou ru).1 hu, e]

/-! ### C70: pointers to the characters -/

/-- **C70 (`data`, views, `c_str`).** -/
theorem data_partial (zero : A) {t : Text A} (o : Ok hc t) (d : OnNode DataOk t) :
    (∃ behind, data zero t = some (text t ++ behind)) ∧ view zero t = some (text t) :=
  ⟨data_ok zero o d, view_ok zero o d⟩

/-- **C70 (`c_str`).** Terminated, unless the string is a single character without a node. -/
theorem c_str_characterised (zero : A) {t : Text A} (o : Ok hc t) (d : OnNode TextOk t) :
    (¬ OneChar t → textCStr zero t = some (text t ++ [zero])) ∧
    (OneChar t → textCStr zero t = some (text t)) := by
  cases t with
  | lit m => exact ⟨fun _ => rfl, fun h => absurd h id⟩
  | chr a => exact ⟨fun h => absurd trivial h, fun _ => rfl⟩
  | node n => exact ⟨fun _ => constCStr_ok zero n o d, fun h => absurd h id⟩

/-- **C70 (strings without insertions).** Both can always be had. -/
theorem pointers_plain_correct (zero : A) {n : Node A} (w : WF hc n) (ni : NoInserted n) :
    view zero (.node n) = some (chars n) ∧ textCStr zero (.node n) = some (chars n ++ [zero]) :=
  ⟨view_ok zero (t := .node n) w (dataOk_of_noInserted n ni),
    constCStr_ok zero n w (textOk_of_noInserted n ni)⟩

/-- **C70 (a write through the pointer).** Only the character at the index changes, and the string
stays in order when no hash has been cached in a flat node. -/
theorem write_through_partial {t : Text A} (o : Ok hc t) {i : Nat} (hi : i < (text t).length) (a : A)
    (rc : OnNode (fun n => RangeClear n 0 (chars n).length) t)
    (nc : OnNode (fun n => ¬ HasStaleCache n) t) :
    ∃ r, writeThrough hc t i a = some r ∧ Ok hc r ∧ text r = (text t).set i a := by
  have fr : ∀ l : List A, CacheOk hc fresh l := by intro l w h; simp [fresh] at h
  cases t with
  | lit m =>
    refine ⟨.node (.comn fresh (m.set i a)), ?_, fr _, rfl⟩
    have hi' : i < m.length := hi
    simp [writeThrough, fin, fresh, setAt, hi']
  | chr c =>
    refine ⟨.node (.comn fresh ([c].set i a)), ?_, fr _, rfl⟩
    have hi' : i < [c].length := hi
    simp only [writeThrough, fin, fresh, setAt, if_pos hi']; rfl
  | node n =>
    have hi' : i < (chars n).length := hi
    have base : ∃ r, ((copyPart n 0 n.size).bind fun m => (setAt m i a).map fun m =>
        Text.node (.comn fresh m)) = some r ∧ Ok hc r ∧ text r = (chars n).set i a := by
      refine ⟨.node (.comn fresh ((chars n).set i a)), ?_, fr _, rfl⟩
      rw [size_eq hc n o, copyAll o rc, Option.bind_some, setAt, if_pos hi']; rfl
    cases n with
    | comn h m =>
      simp only [writeThrough, fin]
      have hi'' : i < m.length := hi
      split
      · rename_i hu
        refine ⟨.node (.comn h (m.set i a)), by rw [setAt, if_pos hi'']; rfl, ?_, rfl⟩
        have hn : h.cache = none := by
          by_contra hne
          exact nc ⟨hu, hne⟩
        intro w hw; rw [hn] at hw; simp at hw
      · exact ⟨.node (.comn fresh (m.set i a)), by rw [setAt, if_pos hi'']; rfl, fr _, rfl⟩
    | _ => exact base

/-! ### C72: copying and constructing -/

omit [Inhabited A] [DecidableEq A] in
/-- **C72 (self-assignment).** A string with a node of its own is destroyed by it. -/
theorem assign_self_characterised (t : Text A) :
    (OnNode (fun n => n.uniq = false) t → assignSelf t = some t) ∧
    (¬ OnNode (fun n => n.uniq = false) t → assignSelf t = none) := by
  cases t with
  | lit m => exact ⟨fun _ => rfl, fun h => absurd trivial h⟩
  | chr a => exact ⟨fun _ => rfl, fun h => absurd trivial h⟩
  | node n =>
    constructor
    · intro h
      have h : n.uniq = false := h
      simp [assignSelf, h]
    · intro h
      have h : ¬ n.uniq = false := h
      simp [assignSelf, h]

/-- **C72 (a string from two iterators).** Right for a range that is not empty; an empty range has
no node to point to. -/
theorem of_iterators_characterised {t : Text A} (o : Ok hc t) {b e : Nat} (hb : b ≤ e)
    (he : e ≤ (text t).length) :
    (b < e → ∃ r, ofIterators hc t b e = some r ∧ Ok hc r ∧
      text r = ((text t).drop b).take (e - b)) ∧
    (b = e → ofIterators hc t b e = none) := by
  constructor
  · intro h
    obtain ⟨r, er, or, tr⟩ := substr_ok o (wsub e b) (show b ≤ (text t).length by omega)
    rw [wsub_eq hb] at er tr
    unfold ofIterators
    rw [wsub_eq hb, er, Option.bind_some]
    cases r with
    | node n => exact ⟨_, rfl, or, tr⟩
    | lit m =>
      exfalso
      unfold substr at er
      dsimp only at er
      rw [size_text o, wsub_eq (by omega)] at er
      rw [if_pos (by omega), Option.map_eq_some_iff] at er
      obtain ⟨_, _, h⟩ := er
      cases h
    | chr m =>
      exfalso
      unfold substr at er
      dsimp only at er
      rw [size_text o, wsub_eq (by omega)] at er
      rw [if_pos (by omega), Option.map_eq_some_iff] at er
      obtain ⟨_, _, h⟩ := er
      cases h
  · rintro rfl
    unfold ofIterators substr
    rw [wsub_eq (Nat.le_refl b)]
    simp

end

end ELC.Text
