import Verif.Eval.Spec
/-! Lemmas on evaluation. -/
namespace ELC.Eval
open Spec

theorem run_mono {P : Prog} : ∀ {fuel : Nat} {s : State} {t : Task} {r : Res}, run P fuel s t = r → r ≠ .cutOff →
    ∀ {g}, fuel ≤ g → run P g s t = r := by
  intro fuel
  induction fuel with
  | zero => intro s t r h hr; exact absurd h.symm hr
  | succ f ih =>
    intro s t r h hr g hg
    obtain ⟨g, rfl⟩ : ∃ g', g = g' + 1 := ⟨g - 1, by omega⟩
    have hg' : f ≤ g := by omega
    cases t with
    | eval n =>
      simp only [run] at h ⊢
      cases hn : P.at n <;> simp only [hn] at h ⊢
      all_goals first | exact h | exact ih h hr hg'
    | list n =>
      simp only [run] at h ⊢
      cases h1 : run P f s (.eval (P.car n)) with
      | cutOff => simp only [h1] at h; exact absurd h.symm hr
      | val s1 v =>
        rw [ih h1 (by simp) hg']
        simp only [h1] at h ⊢
        split at h
        · next ht => rw [if_pos ht]; exact ih h hr hg'
        · next ht => rw [if_neg ht]; exact h
      | goto s1 m =>
        rw [ih h1 (by simp) hg']
        simp only [h1] at h ⊢
        exact ih h hr hg'
      | ret s1 =>
        rw [ih h1 (by simp) hg']
        simp only [h1] at h ⊢
        exact h
      | err s1 e =>
        rw [ih h1 (by simp) hg']
        simp only [h1] at h ⊢
        exact h
    | host k =>
      cases k with
      | answer v => exact h
      | goto n => exact h
      | ret => exact h
      | throw e => exact h
      | emit e k => simp only [run] at h ⊢; exact ih h hr hg'
      | look k => simp only [run] at h ⊢; exact ih h hr hg'
      | eval n k =>
        simp only [run] at h ⊢
        cases h1 : run P f s (.eval n) with
        | cutOff => simp only [h1] at h; exact absurd h.symm hr
        | val s1 v =>
          rw [ih h1 (by simp) hg']
          simp only [h1] at h ⊢
          exact ih h hr hg'
        | goto s1 m =>
          rw [ih h1 (by simp) hg']
          simp only [h1] at h ⊢
          exact h
        | ret s1 =>
          rw [ih h1 (by simp) hg']
          simp only [h1] at h ⊢
          exact h
        | err s1 e =>
          rw [ih h1 (by simp) hg']
          simp only [h1] at h ⊢
          exact h

theorem Ends.of {P : Prog} {fuel : Nat} {s : State} {t : Task} {r : Res} (h : run P fuel s t = r) (hr : r ≠ .cutOff) :
    Ends P s t r := ⟨fuel, fun _ hg => run_mono h hr hg⟩

theorem Ends.unique {P : Prog} {s : State} {t : Task} {r r' : Res} (h : Ends P s t r) (h' : Ends P s t r') : r = r' := by
  obtain ⟨F, hF⟩ := h
  obtain ⟨G, hG⟩ := h'
  rw [← hF (max F G) (by omega), hG (max F G) (by omega)]

/-- One more step. -/
theorem Ends.step {P : Prog} {s : State} {t : Task} {r : Res} {f : Nat → Res} (h : ∃ F, ∀ fuel ≥ F, f fuel = r)
    (he : ∀ fuel, run P (fuel + 1) s t = f fuel) : Ends P s t r := by
  obtain ⟨F, hF⟩ := h
  refine ⟨F + 1, fun fuel hf => ?_⟩
  obtain ⟨g, rfl⟩ : ∃ g, fuel = g + 1 := ⟨fuel - 1, by omega⟩
  rw [he, hF g (by omega)]

theorem ends_code {P : Prog} {s : State} {n a d : Ref} {r : Res} (hn : P.at n = .code a d) (h : Ends P s (.list n) r) :
    Ends P s (.eval n) r := Ends.step h (fun fuel => by simp only [run, hn])

theorem ends_expr {P : Prog} {s : State} {n c a : Ref} {r : Res} (hn : P.at n = .expr c a) (h : Ends P s (call P c a) r) :
    Ends P s (.eval n) r := Ends.step h (fun fuel => by simp only [run, hn])

theorem ends_self {P : Prog} {s : State} {n : Ref} (h1 : ∀ a d, P.at n ≠ .code a d) (h2 : ∀ c a, P.at n ≠ .expr c a) :
    Ends P s (.eval n) (.val s n) := by
  have : run P 1 s (.eval n) = .val s n := by
    unfold run
    dsimp only
    split
    · next hn => exact absurd hn (h1 _ _)
    · next hn => exact absurd hn (h2 _ _)
    · rfl
  exact Ends.of this (by simp)

theorem ends_list {P : Prog} {s : State} {n : Ref} {r1 r : Res} (h1 : Ends P s (.eval (P.car n)) r1)
    (h2 : match (motive := Res → Prop) r1 with
      | .val s1 v => (if P.truth (P.cdr n) then Ends P { s1 with shared := v } (.list (P.cdr n)) r
          else r = .val { s1 with shared := v } v)
      | .goto s1 m => Ends P s1 (.list m) r
      | .ret s1 => r = .val s1 s1.shared
      | .err s1 e => r = .err s1 e
      | .cutOff => False) : Ends P s (.list n) r := by
  obtain ⟨F, hF⟩ := h1
  cases r1 with
  | cutOff => exact h2.elim
  | val s1 v =>
    by_cases ht : P.truth (P.cdr n) = true
    · simp only [ht, if_true] at h2
      obtain ⟨G, hG⟩ := h2
      refine ⟨max F G + 1, fun fuel hf => ?_⟩
      obtain ⟨g, rfl⟩ : ∃ g, fuel = g + 1 := ⟨fuel - 1, by omega⟩
      simp only [run]
      rw [hF g (by omega)]
      simp only [ht, if_true]
      exact hG g (by omega)
    · simp only [ht] at h2
      refine ⟨F + 1, fun fuel hf => ?_⟩
      obtain ⟨g, rfl⟩ : ∃ g, fuel = g + 1 := ⟨fuel - 1, by omega⟩
      simp only [run]
      rw [hF g (by omega)]
      simp only [ht]
      exact h2.symm
  | goto s1 m =>
    obtain ⟨G, hG⟩ := h2
    refine ⟨max F G + 1, fun fuel hf => ?_⟩
    obtain ⟨g, rfl⟩ : ∃ g, fuel = g + 1 := ⟨fuel - 1, by omega⟩
    simp only [run]
    rw [hF g (by omega)]
    exact hG g (by omega)
  | ret s1 =>
    refine ⟨F + 1, fun fuel hf => ?_⟩
    obtain ⟨g, rfl⟩ : ∃ g, fuel = g + 1 := ⟨fuel - 1, by omega⟩
    simp only [run]
    rw [hF g (by omega)]
    exact h2.symm
  | err s1 e =>
    refine ⟨F + 1, fun fuel hf => ?_⟩
    obtain ⟨g, rfl⟩ : ∃ g, fuel = g + 1 := ⟨fuel - 1, by omega⟩
    simp only [run]
    rw [hF g (by omega)]
    exact h2.symm

theorem ends_hostEval {P : Prog} {s s1 : State} {n v : Ref} {k : Ref → Host} {r : Res} (h1 : Ends P s (.eval n) (.val s1 v))
    (h2 : Ends P s1 (.host (k v)) r) : Ends P s (.host (.eval n k)) r := by
  obtain ⟨F, hF⟩ := h1
  obtain ⟨G, hG⟩ := h2
  refine ⟨max F G + 1, fun fuel hf => ?_⟩
  obtain ⟨g, rfl⟩ : ∃ g, fuel = g + 1 := ⟨fuel - 1, by omega⟩
  simp only [run]
  rw [hF g (by omega)]
  exact hG g (by omega)

theorem ends_hostStop {P : Prog} {s : State} {n : Ref} {k : Ref → Host} {r : Res} (h1 : Ends P s (.eval n) r)
    (h2 : ∀ s v, r ≠ .val s v) : Ends P s (.host (.eval n k)) r := by
  obtain ⟨F, hF⟩ := h1
  refine ⟨F + 1, fun fuel hf => ?_⟩
  obtain ⟨g, rfl⟩ : ∃ g, fuel = g + 1 := ⟨fuel - 1, by omega⟩
  simp only [run]
  rw [hF g (by omega)]
  cases r with
  | val s v => exact absurd rfl (h2 s v)
  | _ => rfl

theorem ends_emit {P : Prog} {s : State} {e : Nat} {k : Host} {r : Res} (h : Ends P { s with log := s.log ++ [e] } (.host k) r) :
    Ends P s (.host (.emit e k)) r := Ends.step h (fun fuel => by simp only [run])

theorem ends_look {P : Prog} {s : State} {k : List Nat → Host} {r : Res} (h : Ends P s (.host (k s.log)) r) :
    Ends P s (.host (.look k)) r := Ends.step h (fun fuel => by simp only [run])

/-- The result that shows `log` and `o`, with `v` in the shared place. -/
def mkRes (v : Ref) (log : List Nat) : Out → Res
  | .val x => .val ⟨v, log⟩ x
  | .goto n => .goto ⟨v, log⟩ n
  | .ret => .ret ⟨v, log⟩
  | .err e => .err ⟨v, log⟩ e

theorem mkRes_shows (v : Ref) (log : List Nat) (o : Out) : Shows (mkRes v log o) log o := by
  cases o <;> exact ⟨rfl, rfl⟩

theorem mkRes_val {v : Ref} {log : List Nat} {o : Out} (h : ∀ x, o ≠ .val x) : ∀ s x, mkRes v log o ≠ .val s x := by
  cases o with
  | val x => exact absurd rfl (h x)
  | _ => intro s x hh; cases hh

/-- The task of the program. -/
def _root_.ELC.Eval.Spec.TameWhat.task : TameWhat → Task
  | .eval n => .eval n
  | .list _ m _ _ => .list m
  | .host h => .host h

/-- What the shared place must hold before. -/
def _root_.ELC.Eval.Spec.TameWhat.pre (v : Ref) : TameWhat → Prop
  | .list _ _ c true => v = c
  | _ => True

theorem tame_run {P : Prog} {log : List Nat} {w : TameWhat} {log' : List Nat} {o : Out} {u : Bool} (h : Tame P log w log' o u) :
    ∀ v, w.pre v → ∃ v', Ends P ⟨v, log⟩ w.task (mkRes v' log' o) ∧ (u = false → v' = v) := by
  induction h with
  | self h1 h2 => exact fun v _ => ⟨v, ends_self h1 h2, fun _ => rfl⟩
  | expr h1 h2 _ ih =>
    intro v _
    obtain ⟨v', h3, h4⟩ := ih v trivial
    refine ⟨v', ends_expr h1 ?_, h4⟩
    rw [show call P _ _ = _ from by unfold call; rw [h2]]; exact h3
  | exprSelf h1 h2 =>
    intro v _
    refine ⟨v, ends_expr h1 ?_, fun _ => rfl⟩
    unfold call
    split
    · next h hh => exact absurd hh (h2 h)
    · exact Ends.of (fuel := 1) rfl (by simp [mkRes])
  | code h1 _ ih =>
    intro v _
    obtain ⟨v', h3, _⟩ := ih v trivial
    exact ⟨v', ends_code h1 h3, fun h => by cases h⟩
  | next _ h2 _ ih1 ih2 =>
    intro v _
    obtain ⟨v1, h3, _⟩ := ih1 v trivial
    obtain ⟨v2, h4, _⟩ := ih2 _ rfl
    refine ⟨v2, ends_list h3 ?_, fun h => by cases h⟩
    simp only [mkRes, h2, if_true]
    exact h4
  | @last log h m cur su l1 w u _ h2 ih1 =>
    intro v _
    obtain ⟨v1, h3, _⟩ := ih1 v trivial
    refine ⟨w, ends_list h3 ?_, fun h => by cases h⟩
    have : ¬ (P.truth (P.cdr m) = true) := by rw [h2]; simp
    simp only [mkRes]
    rw [if_neg this]
    trivial
  | @jump log h m cur su l1 k u l2 o u' _ _ _ ih1 ih2 =>
    intro v hv
    obtain ⟨v1, h3, h5⟩ := ih1 v trivial
    have : (TameWhat.list h k cur (su && !u)).pre v1 := by
      cases su
      · trivial
      · cases u
        · rw [h5 rfl]; exact hv
        · trivial
    obtain ⟨v2, h4, _⟩ := ih2 v1 this
    exact ⟨v2, ends_list h3 h4, fun h => by cases h⟩
  | listRet _ ih1 =>
    intro v hv
    obtain ⟨v1, h3, h5⟩ := ih1 v trivial
    refine ⟨v1, ends_list h3 ?_, fun h => by cases h⟩
    have : v = _ := hv
    rw [h5 rfl, this]
    rfl
  | listErr _ ih1 =>
    intro v _
    obtain ⟨v1, h3, h5⟩ := ih1 v trivial
    exact ⟨v1, ends_list h3 rfl, fun h => by cases h⟩
  | answer => exact fun v _ => ⟨v, Ends.of (fuel := 1) rfl (by simp [mkRes]), fun _ => rfl⟩
  | goto => exact fun v _ => ⟨v, Ends.of (fuel := 1) rfl (by simp [mkRes]), fun _ => rfl⟩
  | ret => exact fun v _ => ⟨v, Ends.of (fuel := 1) rfl (by simp [mkRes]), fun _ => rfl⟩
  | throw => exact fun v _ => ⟨v, Ends.of (fuel := 1) rfl (by simp [mkRes]), fun _ => rfl⟩
  | emit _ ih =>
    intro v _
    obtain ⟨v', h3, h4⟩ := ih v trivial
    exact ⟨v', ends_emit h3, h4⟩
  | look _ ih =>
    intro v _
    obtain ⟨v', h3, h4⟩ := ih v trivial
    exact ⟨v', ends_look h3, h4⟩
  | hostEval _ _ ih1 ih2 =>
    intro v _
    obtain ⟨v1, h3, h5⟩ := ih1 v trivial
    obtain ⟨v2, h4, h6⟩ := ih2 v1 trivial
    refine ⟨v2, ends_hostEval h3 h4, fun h => ?_⟩
    rw [Bool.or_eq_false_iff] at h
    rw [h6 h.2, h5 h.1]
  | hostStop _ h2 ih1 =>
    intro v _
    obtain ⟨v1, h3, h5⟩ := ih1 v trivial
    exact ⟨v1, ends_hostStop h3 (mkRes_val h2), h5⟩

/-- The log at the end has `l` as its beginning. -/
def Grows (l : List Nat) : Res → Prop
  | .val s1 _ | .goto s1 _ | .ret s1 | .err s1 _ => l <+: s1.log
  | .cutOff => True

/-- Nothing done is undone: the log only grows. -/
theorem run_log {P : Prog} : ∀ (fuel : Nat) (s : State) (t : Task), Grows s.log (run P fuel s t) := by
  intro fuel
  induction fuel with
  | zero => intro s t; trivial
  | succ f ih =>
    intro s t
    cases t with
    | eval n =>
      cases hn : P.at n <;> simp only [run, hn]
      all_goals first | exact ih s _ | exact List.prefix_refl _
    | list n =>
      have h1 := ih s (.eval (P.car n))
      unfold run

      cases h : run P f s (.eval (P.car n)) with
      | cutOff => trivial
      | val s1 v =>
        rw [h] at h1
        dsimp only
        by_cases ht : P.truth (P.cdr n) = true
        · rw [if_pos ht]
          have h2 := ih { s1 with shared := v } (.list (P.cdr n))
          revert h2
          cases run P f { s1 with shared := v } (.list (P.cdr n)) <;> intro h2
          all_goals first | trivial | exact h1.trans h2
        · rw [if_neg ht]; exact h1
      | goto s1 m =>
        rw [h] at h1
        dsimp only
        have h2 := ih s1 (.list m)
        revert h2
        cases run P f s1 (.list m) <;> intro h2
        all_goals first | trivial | exact List.IsPrefix.trans h1 h2
      | ret s1 => rw [h] at h1; exact h1
      | err s1 e => rw [h] at h1; exact h1
    | host k =>
      cases k with
      | answer v => exact List.prefix_refl _
      | goto v => exact List.prefix_refl _
      | ret => exact List.prefix_refl _
      | throw v => exact List.prefix_refl _
      | emit e k =>
        have h1 := ih { s with log := s.log ++ [e] } (.host k)
        unfold run
        dsimp only
        revert h1
        cases run P f { s with log := s.log ++ [e] } (.host k) <;> intro h1
        all_goals first | trivial | exact (List.prefix_append _ _).trans h1
      | look k => exact ih s _
      | eval n k =>
        have h1 := ih s (.eval n)
        unfold run
        dsimp only
        cases h : run P f s (.eval n) with
        | cutOff => trivial
        | val s1 v =>
          rw [h] at h1
          dsimp only
          have h2 := ih s1 (.host (k v))
          revert h2
          cases run P f s1 (.host (k v)) <;> intro h2
          all_goals first | trivial | exact List.IsPrefix.trans h1 h2
        | goto s1 m => rw [h] at h1; exact h1
        | ret s1 => rw [h] at h1; exact h1
        | err s1 e => rw [h] at h1; exact h1

/-- The loop of a code list ends with an answer or an error. -/
theorem list_no_leak {P : Prog} : ∀ (fuel : Nat) (s : State) (n : Ref),
    (∀ s' m, run P fuel s (.list n) ≠ .goto s' m) ∧ (∀ s', run P fuel s (.list n) ≠ .ret s') := by
  intro fuel
  induction fuel with
  | zero => intro s n; constructor <;> intros <;> simp [run]
  | succ f ih =>
    intro s n
    unfold run

    cases run P f s (.eval (P.car n)) with
    | cutOff => constructor <;> intros <;> simp
    | val s1 v =>
      dsimp only
      by_cases ht : P.truth (P.cdr n) = true
      · rw [if_pos ht]; exact ih _ _
      · rw [if_neg ht]; constructor <;> intros <;> simp
    | goto s1 m => exact ih _ _
    | ret s1 => constructor <;> intros <;> simp
    | err s1 e => constructor <;> intros <;> simp

theorem tame_ideal {P : Prog} {log : List Nat} {w : TameWhat} {log' : List Nat} {o : Out} {u : Bool} (h : Tame P log w log' o u) :
    Ideal P log w.plain log' o := by
  induction h with
  | self h1 h2 => exact .self h1 h2
  | expr h1 h2 _ ih => exact .expr h1 h2 ih
  | exprSelf h1 h2 => exact .exprSelf h1 h2
  | code h1 _ ih => exact .code h1 ih
  | next _ h2 _ ih1 ih2 => exact .next ih1 h2 ih2
  | last _ h2 ih1 => exact .last ih1 h2
  | jump _ h2 _ ih1 ih2 => exact .jump ih1 h2 ih2
  | listRet _ ih1 => exact .listRet ih1
  | listErr _ ih1 => exact .listErr ih1
  | answer => exact .answer
  | goto => exact .goto
  | ret => exact .ret
  | throw => exact .throw
  | emit _ ih => exact .emit ih
  | look _ ih => exact .look ih
  | hostEval _ _ ih1 ih2 => exact .hostEval ih1 ih2
  | hostStop _ h2 ih1 => exact .hostStop ih1 h2

theorem ideal_det {P : Prog} {log : List Nat} {w : What} {l1 : List Nat} {o1 : Out} (h : Ideal P log w l1 o1) :
    ∀ {l2 o2}, Ideal P log w l2 o2 → l1 = l2 ∧ o1 = o2 := by
  induction h with
  | self h1 h2 =>
    intro l2 o2 h'
    cases h' with
    | self => exact ⟨rfl, rfl⟩
    | expr h _ _ => exact absurd h (h2 _ _)
    | exprSelf h _ => exact absurd h (h2 _ _)
    | code h _ => exact absurd h (h1 _ _)
  | expr h1 h2 _ ih =>
    intro l2 o2 h'
    cases h' with
    | self _ h => exact absurd h1 (h _ _)
    | expr h h3 h4 =>
      rw [h1] at h; cases h
      rw [h2] at h3; cases h3
      exact ih h4
    | exprSelf h h3 =>
      rw [h1] at h; cases h
      exact absurd h2 (h3 _)
    | code h _ => rw [h1] at h; cases h
  | exprSelf h1 h2 =>
    intro l2 o2 h'
    cases h' with
    | self _ h => exact absurd h1 (h _ _)
    | expr h h3 h4 =>
      rw [h1] at h; cases h
      exact absurd h3 (h2 _)
    | exprSelf h h3 =>
      rw [h1] at h; cases h
      exact ⟨rfl, rfl⟩
    | code h _ => rw [h1] at h; cases h
  | code h1 _ ih =>
    intro l2 o2 h'
    cases h' with
    | self h _ => exact absurd h1 (h _ _)
    | expr h h3 h4 => rw [h1] at h; cases h
    | exprSelf h h3 => rw [h1] at h; cases h
    | code h h2 => exact ih h2
  | next _ h2 _ ih1 ih2 =>
    intro l2 o2 h'
    cases h' with
    | next a1 a2 a3 => obtain ⟨rfl, e⟩ := ih1 a1; cases e; exact ih2 a3
    | last a1 a2 => rw [h2] at a2; cases a2
    | jump a1 a2 a3 => obtain ⟨rfl, e⟩ := ih1 a1; cases e
    | leave a1 a2 => obtain ⟨rfl, e⟩ := ih1 a1; cases e
    | listRet a1 => obtain ⟨rfl, e⟩ := ih1 a1; cases e
    | listErr a1 => obtain ⟨rfl, e⟩ := ih1 a1; cases e
  | last _ h2 ih1 =>
    intro l2 o2 h'
    cases h' with
    | next a1 a2 a3 => rw [h2] at a2; cases a2
    | last a1 a2 => obtain ⟨rfl, e⟩ := ih1 a1; cases e; exact ⟨rfl, rfl⟩
    | jump a1 a2 a3 => obtain ⟨rfl, e⟩ := ih1 a1; cases e
    | leave a1 a2 => obtain ⟨rfl, e⟩ := ih1 a1; cases e
    | listRet a1 => obtain ⟨rfl, e⟩ := ih1 a1; cases e
    | listErr a1 => obtain ⟨rfl, e⟩ := ih1 a1; cases e
  | jump _ h2 _ ih1 ih2 =>
    intro l2 o2 h'
    cases h' with
    | next a1 a2 a3 => obtain ⟨rfl, e⟩ := ih1 a1; cases e
    | last a1 a2 => obtain ⟨rfl, e⟩ := ih1 a1; cases e
    | jump a1 a2 a3 => obtain ⟨rfl, e⟩ := ih1 a1; cases e; exact ih2 a3
    | leave a1 a2 => obtain ⟨rfl, e⟩ := ih1 a1; cases e; exact absurd h2 a2
    | listRet a1 => obtain ⟨rfl, e⟩ := ih1 a1; cases e
    | listErr a1 => obtain ⟨rfl, e⟩ := ih1 a1; cases e
  | leave _ h2 ih1 =>
    intro l2 o2 h'
    cases h' with
    | next a1 a2 a3 => obtain ⟨rfl, e⟩ := ih1 a1; cases e
    | last a1 a2 => obtain ⟨rfl, e⟩ := ih1 a1; cases e
    | jump a1 a2 a3 => obtain ⟨rfl, e⟩ := ih1 a1; cases e; exact absurd a2 h2
    | leave a1 a2 => obtain ⟨rfl, e⟩ := ih1 a1; cases e; exact ⟨rfl, rfl⟩
    | listRet a1 => obtain ⟨rfl, e⟩ := ih1 a1; cases e
    | listErr a1 => obtain ⟨rfl, e⟩ := ih1 a1; cases e
  | listRet _ ih1 =>
    intro l2 o2 h'
    cases h' with
    | next a1 a2 a3 => obtain ⟨rfl, e⟩ := ih1 a1; cases e
    | last a1 a2 => obtain ⟨rfl, e⟩ := ih1 a1; cases e
    | jump a1 a2 a3 => obtain ⟨rfl, e⟩ := ih1 a1; cases e
    | leave a1 a2 => obtain ⟨rfl, e⟩ := ih1 a1; cases e
    | listRet a1 => obtain ⟨rfl, e⟩ := ih1 a1; exact ⟨rfl, rfl⟩
    | listErr a1 => obtain ⟨rfl, e⟩ := ih1 a1; cases e
  | listErr _ ih1 =>
    intro l2 o2 h'
    cases h' with
    | next a1 a2 a3 => obtain ⟨rfl, e⟩ := ih1 a1; cases e
    | last a1 a2 => obtain ⟨rfl, e⟩ := ih1 a1; cases e
    | jump a1 a2 a3 => obtain ⟨rfl, e⟩ := ih1 a1; cases e
    | leave a1 a2 => obtain ⟨rfl, e⟩ := ih1 a1; cases e
    | listRet a1 => obtain ⟨rfl, e⟩ := ih1 a1; cases e
    | listErr a1 => obtain ⟨rfl, e⟩ := ih1 a1; cases e; exact ⟨rfl, rfl⟩
  | answer => intro l2 o2 h'; cases h'; exact ⟨rfl, rfl⟩
  | goto => intro l2 o2 h'; cases h'; exact ⟨rfl, rfl⟩
  | ret => intro l2 o2 h'; cases h'; exact ⟨rfl, rfl⟩
  | throw => intro l2 o2 h'; cases h'; exact ⟨rfl, rfl⟩
  | emit _ ih => intro l2 o2 h'; cases h' with | emit h => exact ih h
  | look _ ih => intro l2 o2 h'; cases h' with | look h => exact ih h
  | hostEval _ _ ih1 ih2 =>
    intro l2 o2 h'
    cases h' with
    | hostEval a1 a2 => obtain ⟨rfl, e⟩ := ih1 a1; cases e; exact ih2 a2
    | hostStop a1 a2 => obtain ⟨rfl, e⟩ := ih1 a1; exact absurd e.symm (a2 _)
  | hostStop _ h2 ih1 =>
    intro l2 o2 h'
    cases h' with
    | hostEval a1 a2 => obtain ⟨rfl, e⟩ := ih1 a1; exact absurd e (h2 _)
    | hostStop a1 a2 => exact ih1 a1

end ELC.Eval
