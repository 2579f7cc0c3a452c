import Verif.Text.Query
/-! C63-C72: what does not hold, with witnesses, and cases that meet the hypotheses. -/
namespace ELC.Text
open Hash Str Str.Spec StrEdit StrEdit.Spec StrCmp StrCmp.Spec Compare Compare.Spec Search.Spec Spec

/-! ### C64 -/

/-- "ab" == "abc" is true for compile-time texts, and the first string becomes "abc". -/
theorem equal_short_refuted : ∃ t a t' a' : Text Nat, text t ≠ text a ∧
    eq 0 t a = some (true, t', a') ∧ text t' ≠ text t :=
  ⟨.lit [1, 2], .lit [1, 2, 3], .lit [1, 2, 3], .lit [1, 2, 3], by decide, by decide, by decide⟩

/-- And `"abc" == "a"` for a single character compares memory behind it. -/
theorem equal_char_refuted : ∃ t a : Text Nat, text t ≠ text a ∧ eq 0 t a = none :=
  ⟨.lit [1, 2], .chr 1, by decide, by decide⟩

/-- "b" and "ac" are ordered one way as compile-time texts and the other way as nodes. -/
theorem order_short_refuted : ∃ (t a : Text Nat) (n m : Node Nat), WF (fun _ => 0#64) n ∧
    WF (fun _ => 0#64) m ∧ text t = chars n ∧ text a = chars m ∧
    (cmpT compare 0 t a).map (·.1) = some .gt ∧
    (cmpT compare 0 (.node n) (.node m)).map (·.1) = some .lt :=
  ⟨.lit [2], .lit [1, 3], .comn fresh [2], .comn fresh [1, 3], by simp [WF, CacheOk, fresh],
    by simp [WF, CacheOk, fresh], by decide, by decide, by decide, by
      simp [cmpT, compareWith, Node.size, compare, compareOfLessAndEq]⟩

/-! ### C65 -/

/-- `a += b` changes `b`: a single character added to a string that grows at its front. -/
theorem push_string_operand_refuted : ∃ t str r a : Text Nat, Ok (fun _ => 0#64) t ∧
    Ok (fun _ => 0#64) str ∧ pushBack (fun _ => 0#64) id 8 t str = some (r, a) ∧ text a ≠ text str :=
  ⟨.chr 1, .node (.head fresh [2] (.comn fresh [3]) 1 1), _, _, trivial,
    by simp [Ok, WF, CacheOk, fresh, chars], rfl, by decide⟩

/-- `c + c` for a single character. -/
theorem self_add_refuted : ∃ t : Text Nat, plusSelf (fun _ => 0#64) id 8 t = none := ⟨.chr 1, rfl⟩

/-! ### C66 -/

/-- A single character and the same character in a node are equal and have different hashes. -/
theorem hash_refuted : ∃ (hc : Nat → Word) (t u : Text Nat), Ok hc t ∧ Ok hc u ∧ text t = text u ∧
    (eq 0 t u).map (·.1) = some true ∧ hash hc t ≠ hash hc u :=
  ⟨BitVec.ofNat 64, .chr 1, .node (.comn fresh [1]), trivial, by simp [Ok, WF, CacheOk, fresh],
    by decide, by
      obtain ⟨_, _, e, _⟩ := equal_partial (hc := fun _ => 0#64) 0 (t := .chr 1)
        (a := .node (.comn fresh [1])) trivial (by simp [Ok, WF, CacheOk, fresh]) trivial
      rw [e]; rfl, by decide +kernel⟩

/-! ### C67 -/

/-- Searching "aba" for "a" from 1 on answers 1. -/
theorem find_from_refuted : ∃ t : Text Nat, ∃ r, findFrom 0 t 1 1 = some r ∧
    ¬ IsFirstFrom (· = 1) (text t) 1 r := by
  refine ⟨.lit [1, 2, 1], some 1, by decide, ?_⟩
  rintro ⟨_, ⟨x, hx, rfl⟩, _⟩
  simp [text] at hx

/-! ### C68 -/

/-- Replacing "a" in "aba" never ends. -/
theorem replace_char_refuted : ∃ t str : Text Nat, Ok (fun _ => 0#64) t ∧ Ok (fun _ => 0#64) str ∧
    ∀ fuel, replaceChar (fun _ => 0#64) id 8 0 t 1 str fuel = none := by
  refine ⟨.lit [1, 2, 1], .lit [9], trivial, trivial, ?_⟩
  have hg : ∀ n, n ≤ id n := fun n => Nat.le_refl n
  have step : ∀ fuel pos p (str aret : Text Nat), Ok (fun _ => 0#64) str → Ok (fun _ => 0#64) aret →
      pos ≤ 3 → Search.inRange 1 ([1, 2, 1].drop pos) = some p →
      (∀ str' aret', Ok (fun _ => 0#64) str' → Ok (fun _ => 0#64) aret' →
        replaceLoop (fun _ => 0#64) id 8 0 (.lit [1, 2, 1]) 1 fuel (p + 1) str' aret' = none) →
      replaceLoop (fun _ => 0#64) id 8 0 (.lit [1, 2, 1]) 1 (fuel + 1) pos str aret = none := by
    intro fuel pos p str aret os oa hp hf ih
    have o : Ok (fun _ => 0#64) (.lit [1, 2, 1] : Text Nat) := trivial
    rw [replaceLoop, findFrom_ok 0 o trivial 1 hp]
    rw [show (text (.lit [1, 2, 1] : Text Nat)).drop pos = [1, 2, 1].drop pos from rfl, hf,
      Option.bind_some]
    dsimp only
    obtain ⟨s, es, oS, _⟩ := substr_ok o (wsub p pos) hp
    rw [es, Option.bind_some]
    obtain ⟨s', a', e', ⟨o', _⟩, oa', _⟩ := pushBack_ok (th := 8) hg oS os
    rw [e', Option.bind_some]
    obtain ⟨ar, ea, oar, _⟩ := pushBackMove_ok (th := 8) hg oa o'
    rw [ea, Option.bind_some]
    exact ih a' ar oa' oar
  have loop : ∀ fuel (str aret : Text Nat), Ok (fun _ => 0#64) str → Ok (fun _ => 0#64) aret →
      replaceLoop (fun _ => 0#64) id 8 0 (.lit [1, 2, 1]) 1 fuel 1 str aret = none ∧
      replaceLoop (fun _ => 0#64) id 8 0 (.lit [1, 2, 1]) 1 fuel 2 str aret = none := by
    intro fuel
    induction fuel with
    | zero => intro str aret _ _; exact ⟨rfl, rfl⟩
    | succ fuel ih =>
      intro str aret os oa
      exact ⟨step fuel 1 1 str aret os oa (by decide) (by decide) fun s a h1 h2 => (ih s a h1 h2).2,
        step fuel 2 0 str aret os oa (by decide) (by decide) fun s a h1 h2 => (ih s a h1 h2).1⟩
  intro fuel
  cases fuel with
  | zero => rfl
  | succ fuel =>
    exact step fuel 0 0 _ _ trivial trivial (by decide) (by decide) fun s a h1 h2 => (loop fuel s a h1 h2).1

/-! ### C69 -/

/-- "x" is said to end with one "a", "aa" not to. -/
theorem ends_with_run_refuted : endsWithRun 0 (.lit [5] : Text Nat) 1 1 = some true ∧
    endsWithRun 0 (.lit [1, 1] : Text Nat) 1 1 = some false := by decide

/-! ### C70 -/

/-- A cached hash is kept when a character is written through the pointer. -/
theorem write_through_refuted : ∃ (hc : Nat → Word) (t r : Text Nat), Ok hc t ∧
    writeThrough hc t 0 2 = some r ∧ text r = [2] ∧ hash hc r = hash hc t ∧
    hash hc r ≠ some (Hash.Spec.arrayHash hc [2]) :=
  ⟨BitVec.ofNat 64, .node (.comn ⟨true, some (hashArray (BitVec.ofNat 64) [1])⟩ [1]), _,
    by intro w h; simp at h; rw [← h]; exact hashArray_hashOf _ _, rfl, rfl, rfl, by decide +kernel⟩

/-- The terminated text of a part of "aXYZb" is not that part, and neither is the view of such a part
with a character added. -/
theorem c_str_refuted : ∃ t : Text Nat, Ok (fun _ => 0#64) t ∧ text t = [8, 9] ∧
    textCStr 0 t = some [7, 8, 0] ∧ view 0 t = some [8, 9] :=
  ⟨.node cutExample, by simp [Ok, cutExample, insertedExample, WF, CacheOk, fresh, chars],
    by decide, by decide, by decide⟩

theorem view_refuted : ∃ t : Text Nat, Ok (fun _ => 0#64) t ∧ text t = [8, 9, 5] ∧
    view 0 t = some [7, 8, 5] :=
  ⟨.node (.endA fresh [5] cutExample 2 1),
    by simp [Ok, cutExample, insertedExample, WF, CacheOk, fresh, chars], by decide, by decide⟩

/-! ### C71 -/

/-- The first part of "a,b" is not "a", and the second is not "b". -/
theorem split_refuted : ∃ (t r r' : Text Nat), text t = [1, 0, 2] ∧
    split (fun _ => 0#64) 7 t 0 0 = some r ∧ text r = [0, 2] ∧
    split (fun _ => 0#64) 7 t 1 0 = some r' ∧ text r' = [1] :=
  ⟨.lit [1, 0, 2], .node (.const fresh [0, 2]), .node (.const fresh [1]), rfl, by decide +kernel, rfl, by decide +kernel, rfl⟩

/-! ### C72 -/

theorem assign_self_refuted : ∃ t : Text Nat, Ok (fun _ => 0#64) t ∧ assignSelf t = none :=
  ⟨.node (.comn fresh [1]), by simp [Ok, WF, CacheOk, fresh], rfl⟩

theorem of_iterators_refuted : ∃ t : Text Nat, ofIterators (fun _ => 0#64) t 1 1 = none :=
  ⟨.lit [1, 2], by decide⟩

/-! ### Cases that meet the hypotheses -/

/-- A string with a node of eight kinds: see `editExample`. -/
def textExample : Text Nat := .node editExample

example : Ok (fun _ => 0#64) textExample := by
  simp [Ok, textExample, editExample, WF, CacheOk, fresh, chars]
example : text textExample = [1, 2, 7, 7, 7, 3, 4, 6, 7, 9] := by decide
example : OnNode (fun n => RangeClear n 0 (chars n).length) textExample := by
  simp [OnNode, textExample, editExample, RangeClear, chars, fresh]
example : OnNode DataOk textExample ∧ OnNode TextOk textExample := by
  simp [OnNode, textExample, editExample, DataOk, TextOk, FlatOk, RangeClear, chars, fresh]
example : OnNode NoInnerErase textExample ∧ OnNode NoEmptyRun textExample := by
  simp [OnNode, textExample, editExample, NoInnerErase, NoEmptyRun, fresh]
example : OnNode (fun n => InsertSafe n 3 4) textExample := by
  simp [OnNode, textExample, editExample, InsertSafe, fresh]
example : InRange (fun _ : Nat => 0#64) (chars editExample).length (.removeBack 2 : Edit Nat) ∧
    Safe editExample (.removeBack 2) := by
  refine ⟨Nat.le_of_ble_eq_true rfl, by simp [editExample, Safe, BackSafe, fresh]⟩
example : OnNode (fun n => ¬ HasStaleCache n) textExample := by
  simp [OnNode, textExample, editExample, HasStaleCache]
example : EqOk textExample (.lit [1, 2]) ∧ EqOk (.lit [1, 2]) (.lit [1, 3, 4] : Text Nat) ∧
    CmpOk (.chr 1) textExample := by
  refine ⟨?_, .inr ⟨1, by decide, by decide, by decide⟩, ?_⟩ <;>
    exact sequential_of_noInner _ (by simp [editExample, NoInnerErase])
example : ∃ pad : List Nat, pad.head? = some 0 ∧ 0 ∉ chars (.comn fresh [7, 7] : Node Nat) ∧
    (chars (.comn fresh [7, 7] : Node Nat)).length ≤ pad.length := ⟨[0, 0], by decide⟩
example : ReplaceAll [7, 7] [8] [1, 2, 7, 7, 7] [1, 2, 8, 7] := by
  refine ReplaceAll.some (r := [1, 2, 7, 7, 7]) (k := 2) (o := [7]) ⟨⟨[1, 2], [7], rfl, rfl⟩, ?_⟩ (.none ?_)
  · rintro j hj ⟨a, b, h, rfl⟩
    match a, hj with
    | [], _ => simp at h
    | [_], _ => simp at h
  · rintro k ⟨a, b, h, _⟩
    have := congrArg List.length h
    simp at this
    omega
example : (∀ x y : Nat, compare x y = .eq ↔ x = y) ∧
    ∀ x y : Nat, compare y x = (compare x y).swap :=
  ⟨fun _ _ => Nat.compare_eq_eq, fun x y => (Nat.compare_swap x y).symm⟩
example : TakesOver GrowsAtFront 8 (.lit [1, 2] : Text Nat)
    (.node (.head fresh [2] (.comn fresh [3]) 1 1)) :=
  ⟨trivial, by decide, by decide, _, rfl, rfl⟩
example : IsLast (· ≠ 1) (text (.lit [5, 1, 1, 1] : Text Nat)) (some 0) := by
  refine ⟨⟨5, rfl, by decide⟩, ?_⟩
  intro j hj x hx
  match j, hj with
  | 1, _ => simp [text] at hx; simp [hx]
  | 2, _ => simp [text] at hx; simp [hx]
  | 3, _ => simp [text] at hx; simp [hx]
  | j + 4, _ => simp [text] at hx

end ELC.Text
