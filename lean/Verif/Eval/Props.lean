import Verif.Eval.Lemmas
/-! The properties of evaluation (C131–C135). -/
namespace ELC.Eval
open Spec

/-! ### C131: jumps -/

/-- What the ideal evaluation does is determined. -/
theorem ideal_unique {P : Prog} {log l1 l2 : List Nat} {n : Ref} {o1 o2 : Out} (h1 : Ideal P log (.eval n) l1 o1)
    (h2 : Ideal P log (.eval n) l2 o2) : l1 = l2 ∧ o1 = o2 := ideal_det h1 h2

/-- C131 and C132, for the runs in which no jump leaves a list and no return comes too early: evaluation does what it should,
whatever was evaluated before. -/
theorem eval_partial {P : Prog} {log log' : List Nat} {n : Ref} {o : Out} {u : Bool} (h : Tame P log (.eval n) log' o u) :
    Ideal P log (.eval n) log' o ∧ ∀ v, ∃ r, Ends P ⟨v, log⟩ (.eval n) r ∧ Shows r log' o := by
  refine ⟨tame_ideal h, fun v => ?_⟩
  obtain ⟨v', h1, _⟩ := tame_run h v trivial
  exact ⟨_, h1, mkRes_shows _ _ _⟩

/-- C131, what happens at a jump: the list that the jump is in goes on at the target, to whatever list that belongs; when
that comes to an end, the list is done. -/
theorem jump_characterised {P : Prog} {s s1 : State} {m k : Ref} {r : Res} (h : Ends P s (.eval (P.car m)) (.goto s1 k)) :
    Ends P s (.list m) r ↔ Ends P s1 (.list k) r := by
  constructor
  · rintro ⟨F, hF⟩
    obtain ⟨G, hG⟩ := h
    refine ⟨max F G, fun fuel hf => ?_⟩
    have h1 := hF (fuel + 1) (by omega)
    rw [show run P (fuel + 1) s (.list m) = run P fuel s1 (.list k) from by
      rw [run, hG fuel (by omega)]] at h1
    exact h1
  · exact fun h2 => ends_list h h2

/-- A loop: do 0; a list inside that jumps to the beginning as long as 0 was done at most `n` times; do 1. -/
def loopProg (n : Nat) : Prog
  | 1 => .code 10 2
  | 2 => .pair 20 3
  | 3 => .pair 11 4
  | 10 => .expr 30 4
  | 11 => .expr 31 4
  | 12 => .expr 32 4
  | 20 => .code 12 4
  | 30 => .func fun _ => .emit 0 (.answer 4)
  | 31 => .func fun _ => .emit 1 (.answer 4)
  | 32 => .func fun _ => .look fun log => if log.count 0 ≤ n then .goto 1 else .answer 4
  | _ => .nil

theorem loop_emit {n : Nat} (x : Nat) (hx : x = 0 ∨ x = 1) (s : State) :
    Ends (loopProg n) s (.eval (10 + x)) (.val { s with log := s.log ++ [x] } 4) := by
  rcases hx with rfl | rfl
  · exact ends_expr (c := 30) (a := 4) rfl (ends_emit (Ends.of (fuel := 1) rfl (by simp)))
  · exact ends_expr (c := 31) (a := 4) rfl (ends_emit (Ends.of (fuel := 1) rfl (by simp)))

theorem loop_run (n : Nat) : ∀ (j i : Nat) (v : Ref), n - i = j → i ≤ n →
    Ends (loopProg n) ⟨v, List.replicate i 0⟩ (.list 1) (.val ⟨4, List.replicate (n + 1) 0 ++ List.replicate (n + 1 - i) 1⟩ 4) := by
  intro j
  induction j with
  | zero =>
    intro i v hj hi
    have hin : i = n := by omega
    subst hin
    refine ends_list (loop_emit 0 (.inl rfl) _) ?_
    refine ends_list (n := 2) (r1 := .val ⟨4, List.replicate i 0 ++ [0]⟩ 4) ?_ ?_
    · refine ends_code (n := 20) rfl (ends_list (n := 20) (r1 := .val ⟨4, List.replicate i 0 ++ [0]⟩ 4) ?_ rfl)
      refine ends_expr (c := 32) (a := 4) rfl (ends_look ?_)
      rw [if_neg (by simp)]
      exact Ends.of (fuel := 1) rfl (by simp)
    · refine ends_list (n := 3) (loop_emit 1 (.inr rfl) _) ?_
      show Res.val _ _ = Res.val _ _
      rw [← List.replicate_succ', show i + 1 - i = 1 by omega]
      rfl
  | succ j ih =>
    intro i v hj hi
    refine ends_list (loop_emit 0 (.inl rfl) _) ?_
    refine ends_list (n := 2) (r1 := .val ⟨4, List.replicate (n + 1) 0 ++ List.replicate (n + 1 - (i + 1)) 1⟩ 4) ?_ ?_
    · refine ends_code (n := 20) rfl (ends_list (n := 20) (r1 := .goto ⟨4, List.replicate i 0 ++ [0]⟩ 1) ?_ ?_)
      · refine ends_expr (c := 32) (a := 4) rfl (ends_look ?_)
        rw [if_pos (by simp; omega)]
        exact Ends.of (fuel := 1) rfl (by simp)
      · show Ends _ _ _ _
        rw [← List.replicate_succ']
        exact ih (i + 1) 4 (by omega) (by omega)
    · refine ends_list (n := 3) (loop_emit 1 (.inr rfl) _) ?_
      show Res.val _ _ = Res.val _ _
      simp only [List.append_assoc]
      rw [← List.replicate_succ', show n + 1 - (i + 1) + 1 = n + 1 - i by omega]

theorem loop_spine (n : Nat) : ∀ k, OnSpine (loopProg n) 20 k → k = 20 := by
  intro k h
  induction h with
  | here => rfl
  | next _ ht ih => subst ih; simp [loopProg, Prog.cdr, Prog.truth, Prog.at] at ht

theorem loop_ideal_emit {n : Nat} (x : Nat) (hx : x = 0 ∨ x = 1) (log : List Nat) :
    Ideal (loopProg n) log (.eval (10 + x)) (log ++ [x]) (.val 4) := by
  rcases hx with rfl | rfl
  · exact .expr (c := 30) (a := 4) rfl rfl (.emit .answer)
  · exact .expr (c := 31) (a := 4) rfl rfl (.emit .answer)

theorem loop_ideal (n : Nat) : ∀ (j i : Nat) (v : Ref), n - i = j → i ≤ n →
    Ideal (loopProg n) (List.replicate i 0) (.list 1 1 v) (List.replicate (n + 1) 0 ++ [1]) (.val 4) := by
  intro j
  induction j with
  | zero =>
    intro i v hj hi
    have hin : i = n := by omega
    subst hin
    refine .next (loop_ideal_emit 0 (.inl rfl) _) rfl ?_
    refine .next (m := 2) (v := 4) (l1 := List.replicate i 0 ++ [0]) ?_ rfl ?_
    · refine .code (n := 20) rfl (.last (m := 20) ?_ rfl)
      refine .expr (c := 32) (a := 4) rfl rfl (.look ?_)
      rw [if_neg (by simp)]
      exact .answer
    · rw [List.replicate_succ']
      exact .last (m := 3) (loop_ideal_emit 1 (.inr rfl) _) rfl
  | succ j ih =>
    intro i v hj hi
    refine .next (loop_ideal_emit 0 (.inl rfl) _) rfl ?_
    refine .jump (m := 2) (k := 1) (l1 := List.replicate i 0 ++ [0]) ?_ .here ?_
    · refine .code (n := 20) rfl (.leave (m := 20) ?_ ?_)
      · refine .expr (c := 32) (a := 4) rfl rfl (.look ?_)
        rw [if_pos (by simp; omega)]
        exact .goto
      · exact fun h => absurd (loop_spine n 1 h) (by decide)
    · rw [← List.replicate_succ']
      exact ih (i + 1) _ (by omega) (by omega)

/-- C131 fails: a loop made by a jump from an inner list to the beginning of the outer one does what comes after the loop
once for every round, not once. -/
theorem jump_out_refuted (n : Nat) :
    Ideal (loopProg n) [] (.eval 1) (List.replicate (n + 1) 0 ++ [1]) (.val 4) ∧
    ∀ v, Ends (loopProg n) ⟨v, []⟩ (.eval 1) (.val ⟨4, List.replicate (n + 1) 0 ++ List.replicate (n + 1) 1⟩ 4) :=
  ⟨.code (n := 1) rfl (loop_ideal n n 0 0 rfl (by omega)), fun v => ends_code (n := 1) rfl (loop_run n n 0 v rfl (by omega))⟩

/-- A loop by a jump in the list itself. -/
def flatProg (n : Nat) : Prog
  | 1 => .code 10 2
  | 2 => .pair 12 3
  | 3 => .pair 11 4
  | 10 => .expr 30 4
  | 11 => .expr 31 4
  | 12 => .expr 32 4
  | 30 => .func fun _ => .emit 0 (.answer 4)
  | 31 => .func fun _ => .emit 1 (.answer 4)
  | 32 => .func fun _ => .look fun log => if log.count 0 ≤ n then .goto 1 else .answer 4
  | _ => .nil

example : ∃ u, Tame (flatProg 0) [] (.eval 1) [0, 1] (.val 4) u :=
  ⟨_, .code (n := 1) rfl (.next (.expr (c := 30) (a := 4) rfl rfl (.emit .answer)) rfl
    (.next (m := 2) (.expr (c := 32) (a := 4) rfl rfl (.look .answer)) rfl
      (.last (m := 3) (.expr (c := 31) (a := 4) rfl rfl (.emit .answer)) rfl)))⟩

example : ∃ u, Tame (flatProg 1) [] (.eval 1) [0, 0, 1] (.val 4) u :=
  ⟨_, .code (n := 1) rfl (.next (.expr (c := 30) (a := 4) rfl rfl (.emit .answer)) rfl
    (.jump (m := 2) (k := 1) (.expr (c := 32) (a := 4) rfl rfl (.look .goto)) .here
    (.next (.expr (c := 30) (a := 4) rfl rfl (.emit .answer)) rfl
    (.next (m := 2) (.expr (c := 32) (a := 4) rfl rfl (.look .answer)) rfl
      (.last (m := 3) (.expr (c := 31) (a := 4) rfl rfl (.emit .answer)) rfl)))))⟩

/-! ### C132: returns -/

/-- C132, what a return does: the list that it is in ends there, and answers with the answer of the element that was answered last,
of whatever list. -/
theorem return_characterised {P : Prog} {s s1 : State} {m : Ref} (h : Ends P s (.eval (P.car m)) (.ret s1)) :
    Ends P s (.list m) (.val s1 s1.shared) := ends_list h rfl

/-- A list that begins with a return; a list with an element and then a function that evaluates another list and returns. -/
def retProg : Prog
  | 1 => .code 10 4
  | 5 => .code 6 7
  | 7 => .pair 11 4
  | 8 => .code 9 4
  | 10 => .expr 30 4
  | 11 => .expr 31 4
  | 30 => .func fun _ => .ret
  | 31 => .func fun _ => .eval 8 fun _ => .ret
  | 4 => .nil
  | _ => .atom

/-- C132 fails: a list that returns at once answers with what another list answered before (9 is not `the_void`), and a
return after an inner list answers with that list's answer. -/
theorem return_refuted :
    (Ideal retProg [] (.eval 1) [] (.val 0) ∧ ∀ v, Ends retProg ⟨v, []⟩ (.eval 1) (.val ⟨v, []⟩ v)) ∧
    (Ideal retProg [] (.eval 5) [] (.val 6) ∧ ∀ v, Ends retProg ⟨v, []⟩ (.eval 5) (.val ⟨9, []⟩ 9)) := by
  have a9 : ∀ s, Ends retProg s (.eval 9) (.val s 9) := fun s =>
    ends_self (by intro a d; simp [Prog.at, retProg]) (by intro a d; simp [Prog.at, retProg])
  have a6 : ∀ s, Ends retProg s (.eval 6) (.val s 6) := fun s =>
    ends_self (by intro a d; simp [Prog.at, retProg]) (by intro a d; simp [Prog.at, retProg])
  have i9 : Ideal retProg [] (.eval 9) [] (.val 9) := .self (by intro a d; simp [Prog.at, retProg]) (by intro a d; simp [Prog.at, retProg])
  have i6 : Ideal retProg [] (.eval 6) [] (.val 6) := .self (by intro a d; simp [Prog.at, retProg]) (by intro a d; simp [Prog.at, retProg])
  refine ⟨⟨?_, fun v => ?_⟩, ⟨?_, fun v => ?_⟩⟩
  · exact .code (n := 1) rfl (.listRet (m := 1) (.expr (c := 30) (a := 4) rfl rfl .ret))
  · exact ends_code (n := 1) rfl (ends_list (n := 1) (r1 := .ret ⟨v, []⟩) (ends_expr (c := 30) (a := 4) rfl (Ends.of (fuel := 1) rfl (by simp))) rfl)
  · refine .code (n := 5) rfl (.next (m := 5) i6 rfl (.listRet (m := 7) ?_))
    exact .expr (c := 31) (a := 4) rfl rfl (.hostEval (.code (n := 8) rfl (.last (m := 8) i9 rfl)) .ret)
  · refine ends_code (n := 5) rfl (ends_list (n := 5) (a6 _) ?_)
    refine ends_list (n := 7) (r1 := .ret ⟨9, []⟩) ?_ rfl
    exact ends_expr (c := 31) (a := 4) rfl (ends_hostEval (s1 := ⟨9, []⟩) (v := 9)
      (ends_code (n := 8) rfl (ends_list (n := 8) (a9 _) rfl)) (Ends.of (fuel := 1) rfl (by simp)))

/-! ### C133: what gets out of a list -/

/-- C133: no jump and no return gets out of a code list. -/
theorem code_list_keeps_jumps {P : Prog} {n a d : Ref} (hn : P.at n = .code a d) {s : State} {r : Res} (h : Ends P s (.eval n) r)
    (hr : r ≠ .cutOff) : (∃ s' v, r = .val s' v) ∨ (∃ s' e, r = .err s' e) := by
  obtain ⟨F, hF⟩ := h
  have h1 := hF (F + 1) (by omega)
  rw [show run P (F + 1) s (.eval n) = run P F s (.list n) from by simp only [run, hn]] at h1
  have h2 := list_no_leak (P := P) F s n
  cases r with
  | val s' v => exact .inl ⟨_, _, rfl⟩
  | err s' e => exact .inr ⟨_, _, rfl⟩
  | goto s' m => exact absurd h1 (h2.1 _ _)
  | ret s' => exact absurd h1 (h2.2 _)
  | cutOff => exact absurd rfl hr

/-- C133: an error in an element ends the list with this error, with what was done until then, and no later element is
evaluated; through any number of lists and functions. -/
theorem errors_pass {P : Prog} {s s1 : State} {e : Nat} :
    (∀ m, Ends P s (.eval (P.car m)) (.err s1 e) → Ends P s (.list m) (.err s1 e)) ∧
    (∀ n a d, P.at n = .code a d → Ends P s (.list n) (.err s1 e) → Ends P s (.eval n) (.err s1 e)) ∧
    (∀ n k, Ends P s (.eval n) (.err s1 e) → Ends P s (.host (.eval n k)) (.err s1 e)) :=
  ⟨fun _ h => ends_list h rfl, fun _ _ _ hn h => ends_code hn h, fun _ _ h => ends_hostStop h (by simp)⟩

/-- C133: nothing that was done is undone, however the evaluation ends. -/
theorem done_stays_done {P : Prog} {s : State} {n : Ref} {r : Res} {log : List Nat} {o : Out} (h : Ends P s (.eval n) r)
    (hs : Shows r log o) : s.log <+: log := by
  obtain ⟨F, hF⟩ := h
  have h1 := run_log (P := P) F s (.eval n)
  rw [hF F (by omega)] at h1
  cases r with
  | cutOff => exact hs.elim
  | _ => exact hs.1 ▸ h1

/-! ### C134: expressions -/

/-- C134: an expression whose head is a function runs it on the arguments as they are; with any other head its answer is the
head itself. -/
theorem expr_characterised {P : Prog} {n c a : Ref} (hn : P.at n = .expr c a) {s : State} {r : Res} :
    (∀ h, P.at c = .func h → (Ends P s (.eval n) r ↔ Ends P s (.host (h a)) r)) ∧
    ((∀ h, P.at c ≠ .func h) → Ends P s (.eval n) (.val s c)) := by
  constructor
  · intro h hc
    have e : call P c a = .host (h a) := by unfold call; rw [hc]
    constructor
    · rintro ⟨F, hF⟩
      refine ⟨F, fun fuel hf => ?_⟩
      have h1 := hF (fuel + 1) (by omega)
      rw [show run P (fuel + 1) s (.eval n) = run P fuel s (.host (h a)) from by simp only [run, hn, e]] at h1
      exact h1
    · exact fun h1 => ends_expr hn (by rw [e]; exact h1)
  · intro hc
    refine ends_expr hn ?_
    unfold call
    split
    · next h hh => exact absurd hh (hc h)
    · exact Ends.of (fuel := 1) rfl (by simp)

/-- `((f) )` where `(f)` answers with a function that does 7. -/
def headProg : Prog
  | 1 => .expr 2 4
  | 2 => .expr 30 4
  | 30 => .func fun _ => .answer 31
  | 31 => .func fun _ => .emit 7 (.answer 4)
  | _ => .nil

/-- C134 fails for heads that are to be evaluated: the function that the head stands for is not called. -/
theorem expr_head_refuted (s : State) : Ends headProg s (.eval 2) (.val s 31) ∧ (∃ h, headProg.at 31 = .func h) ∧
    Ends headProg s (.eval 1) (.val s 2) ∧
    Ends headProg s (call headProg 31 4) (.val { s with log := s.log ++ [7] } 4) :=
  ⟨ends_expr (c := 30) (a := 4) rfl (Ends.of (fuel := 1) rfl (by simp)), ⟨_, rfl⟩,
    ends_expr (c := 2) (a := 4) rfl (Ends.of (fuel := 1) rfl (by simp)), ends_emit (Ends.of (fuel := 1) rfl (by simp))⟩

/-- C134: all nodes but expressions and code lists stand for themselves; called, all but functions answer with
themselves. -/
theorem self_evaluating {P : Prog} {n : Ref} (h1 : ∀ a d, P.at n ≠ .code a d) (h2 : ∀ c a, P.at n ≠ .expr c a) (s : State) :
    Ends P s (.eval n) (.val s n) ∧ ((∀ h, P.at n ≠ .func h) → ∀ args, Ends P s (call P n args) (.val s n)) := by
  refine ⟨ends_self h1 h2, fun h3 args => ?_⟩
  unfold call
  split
  · next h hh => exact absurd hh (h3 h)
  · exact Ends.of (fuel := 1) rfl (by simp)

/-! ### C135: lists end -/

/-- A node with two parts. -/
def IsPair (P : Prog) (n a d : Ref) : Prop := P.at n = .pair a d ∨ P.at n = .code a d ∨ P.at n = .expr a d

/-- A node that ends lists. -/
def IsEnd (P : Prog) (n : Ref) : Prop := P.at n = .nil ∨ P.at n = .void

/-- The elements of the list at `n`, which ends with `nil` or `the_void`. -/
inductive Elements (P : Prog) : Ref → List Ref → Prop where
  | last {n a d} : IsPair P n a d → IsEnd P d → Elements P n [a]
  | next {n a d l} : IsPair P n a d → ¬ IsEnd P d → Elements P d l → Elements P n (a :: l)

/-- C131, C135: the parts of nodes that have two are these, `nil`, `the_void` and numbers are their own parts, those of
functions are `the_void`; `nil` and `the_void` are the nodes that end a list. -/
theorem parts_correct (P : Prog) (n : Ref) :
    (∀ a d, IsPair P n a d → P.car n = a ∧ P.cdr n = d) ∧
    (P.at n = .atom ∨ IsEnd P n → P.car n = n ∧ P.cdr n = n) ∧
    ((∃ h, P.at n = .func h) → P.car n = 0 ∧ P.cdr n = 0) ∧
    (P.truth n = false ↔ IsEnd P n) := by
  unfold IsPair IsEnd Prog.car Prog.cdr Prog.truth
  cases P.at n <;> simp

/-- The element always does `does` and answers `v`. -/
def Does (P : Prog) (e : Ref) (does : List Nat) (v : Ref) : Prop :=
  ∀ s : State, ∃ sh, Ends P s (.eval e) (.val ⟨sh, s.log ++ does⟩ v)

/-- C135, for lists that end with `nil` or `the_void`: elements that answer are evaluated once each, in order, and the list
answers with the answer of the last one. -/
theorem straight_list_partial {P : Prog} {n a d : Ref} (hn : P.at n = .code a d) {l : List Ref} (hl : Elements P n l)
    (act : Ref → List Nat) (val : Ref → Ref) (h : ∀ e ∈ l, Does P e (act e) (val e)) (hne : l ≠ []) (s : State) :
    ∃ sh, Ends P s (.eval n) (.val ⟨sh, s.log ++ l.flatMap act⟩ (val (l.getLast hne))) := by
  have key : ∀ {n l}, Elements P n l → ∀ (hne : l ≠ []), (∀ e ∈ l, Does P e (act e) (val e)) → ∀ s : State,
      ∃ sh, Ends P s (.list n) (.val ⟨sh, s.log ++ l.flatMap act⟩ (val (l.getLast hne))) := by
    intro n l hl
    induction hl with
    | @last n a d hp ht =>
      intro hne h s
      obtain ⟨rfl, rfl⟩ := (parts_correct P n).1 a d hp
      have ht := (parts_correct P (P.cdr n)).2.2.2.2 ht
      obtain ⟨sh, h1⟩ := h _ (List.mem_singleton.2 rfl) s
      have ht' : ¬ P.truth (P.cdr n) = true := by rw [ht]; simp
      refine ⟨val (P.car n), ends_list h1 ?_⟩
      simp only [List.flatMap_cons, List.flatMap_nil, List.append_nil, List.getLast_singleton]
      rw [if_neg ht']
      trivial
    | @next n a d l hp ht hl ih =>
      intro hne h s
      obtain ⟨rfl, rfl⟩ := (parts_correct P n).1 a d hp
      have ht : P.truth (P.cdr n) = true := by
        cases hh : P.truth (P.cdr n)
        · exact absurd ((parts_correct P (P.cdr n)).2.2.2.1 hh) ht
        · rfl
      obtain ⟨sh, h1⟩ := h (P.car n) (by simp) s
      have hl' : l ≠ [] := by cases hl <;> simp
      obtain ⟨sh2, h2⟩ := ih hl' (fun e he => h e (List.mem_cons_of_mem _ he)) ⟨val (P.car n), s.log ++ act (P.car n)⟩
      refine ⟨sh2, ends_list h1 ?_⟩
      dsimp only
      rw [if_pos ht, List.flatMap_cons, ← List.append_assoc, List.getLast_cons hl']
      exact h2
  obtain ⟨sh, h1⟩ := key hl hne h s
  exact ⟨sh, ends_code hn h1⟩

/-- A list whose last pair ends with a number instead of `nil`. -/
def dottedProg : Prog
  | 1 => .code 3 5
  | 4 => .nil
  | _ => .atom

/-- C135, when a list never ends: all its elements answer, and following it meets only pairs and numbers (for which this
is to follow them to themselves), neither `nil` nor `the_void`. -/
theorem endless_characterised {P : Prog} {n a d : Ref} (hn : P.at n = .code a d) (on : Ref → Prop) (h0 : on n)
    (hpair : ∀ m a d, on m → IsPair P m a d → on d ∧ ∃ does v, Does P a does v)
    (hend : ∀ m, on m → P.at m = .atom ∨ ∃ a d, IsPair P m a d) (s : State) : NeverEnds P s (.eval n) := by
  have htrue : ∀ m, on m → P.truth m = true := by
    intro m hm
    cases ht : P.truth m
    · have h1 := (parts_correct P m).2.2.2.1 ht
      rcases hend m hm with h2 | ⟨a, d, h2⟩
      · rcases h1 with h1 | h1 <;> rw [h2] at h1 <;> cases h1
      · rcases h1 with h1 | h1 <;> rcases h2 with h2 | h2 | h2 <;> rw [h2] at h1 <;> cases h1
    · rfl
  have hstep : ∀ m, on m → P.truth (P.cdr m) = true ∧ on (P.cdr m) := by
    intro m hm
    have : on (P.cdr m) := by
      rcases hend m hm with h2 | ⟨a, d, h2⟩
      · rw [((parts_correct P m).2.1 (.inl h2)).2]; exact hm
      · rw [((parts_correct P m).1 a d h2).2]; exact (hpair m a d hm h2).1
    exact ⟨htrue _ this, this⟩
  have hans : ∀ m, on m → ∃ does v, Does P (P.car m) does v := by
    intro m hm
    rcases hend m hm with h2 | ⟨a, d, h2⟩
    · rw [((parts_correct P m).2.1 (.inl h2)).1]
      exact ⟨[], m, fun s => ⟨s.shared, by
        rw [List.append_nil]
        exact ends_self (by rw [h2]; simp) (by rw [h2]; simp)⟩⟩
    · rw [((parts_correct P m).1 a d h2).1]; exact (hpair m a d hm h2).2
  have key : ∀ fuel m (s : State), on m → run P fuel s (.list m) = .cutOff := by
    intro fuel
    induction fuel with
    | zero => intro m s _; rfl
    | succ f ih =>
      intro m s hm
      obtain ⟨does, v, hd⟩ := hans m hm
      obtain ⟨sh, F, hF⟩ := hd s
      obtain ⟨ht, hm'⟩ := hstep m hm
      rw [run]
      cases h1 : run P f s (.eval (P.car m)) with
      | cutOff => rfl
      | val s1 w => dsimp only; rw [if_pos ht]; exact ih _ _ hm'
      | goto s1 k =>
        have := run_mono h1 (by simp) (Nat.le_max_left f F)
        rw [hF _ (Nat.le_max_right f F)] at this; cases this
      | ret s1 =>
        have := run_mono h1 (by simp) (Nat.le_max_left f F)
        rw [hF _ (Nat.le_max_right f F)] at this; cases this
      | err s1 e =>
        have := run_mono h1 (by simp) (Nat.le_max_left f F)
        rw [hF _ (Nat.le_max_right f F)] at this; cases this
  intro fuel
  cases fuel with
  | zero => rfl
  | succ f =>
    simp only [run, hn]
    exact key f n s h0

/-- C135 fails: a list that ends with a number is never done, though it has one element only, a number. -/
theorem dotted_list_refuted (s : State) : NeverEnds dottedProg s (.eval 1) := by
  refine endless_characterised (n := 1) (a := 3) (d := 5) rfl (fun m => m = 1 ∨ m = 5) (.inl rfl) ?_ ?_ s
  · rintro m a d (rfl | rfl) hp
    · rcases hp with h | h | h <;> cases h
      exact ⟨.inr rfl, [], 3, fun s => ⟨s.shared, by
        rw [List.append_nil]
        exact ends_self (n := 3) (by intro a d; simp [Prog.at, dottedProg]) (by intro a d; simp [Prog.at, dottedProg])⟩⟩
    · rcases hp with h | h | h <;> cases h
  · rintro m (rfl | rfl)
    · exact .inr ⟨3, 5, .inr (.inl rfl)⟩
    · exact .inl rfl

example : Elements (flatProg 0) 1 [10, 12, 11] :=
  .next (d := 2) (.inr (.inl rfl)) (by rintro (h | h) <;> cases h)
    (.next (d := 3) (.inl rfl) (by rintro (h | h) <;> cases h) (.last (d := 4) (.inl rfl) (.inl rfl)))
example (n : Nat) : Does (flatProg n) 10 [0] 4 := fun s => ⟨s.shared, ends_expr (c := 30) (a := 4) rfl (ends_emit (Ends.of (fuel := 1) rfl (by simp)))⟩

end ELC.Eval
