import Verif.Eval.Model
/-! What is asked of evaluation. -/
namespace ELC.Eval.Spec
open ELC.Eval

/-- How a run should end. -/
inductive Out where
  | val (v : Ref)
  | goto (n : Ref)
  | ret
  | err (e : Nat)
deriving DecidableEq, Repr

/-- `k` is an element (a pair on the spine) of the list that begins at `h`. -/
inductive OnSpine (P : Prog) (h : Ref) : Ref → Prop where
  | here : OnSpine P h h
  | next {m} : OnSpine P h m → P.truth (P.cdr m) = true → OnSpine P h (P.cdr m)

/-- What is to be evaluated: a node, the list beginning at `head` from `m` on with the answer `cur` so far, a function. -/
inductive What where
  | eval (n : Ref)
  | list (head m : Ref) (cur : Ref)
  | host (h : Host)

/-- What evaluation should do: `Ideal P log w log' o` says that with `log` done before, `w` comes to an end with `o` and then
`log'` is done.  A jump leaves all lists the target is no element of and goes on at the target.  A return ends the list it is
in, which answers with the last answer of an element, or `the_void` when there is none. -/
inductive Ideal (P : Prog) : List Nat → What → List Nat → Out → Prop where
  | self {log n} : (∀ a d, P.at n ≠ .code a d) → (∀ c a, P.at n ≠ .expr c a) → Ideal P log (.eval n) log (.val n)
  | expr {log n c a h log' o} : P.at n = .expr c a → P.at c = .func h → Ideal P log (.host (h a)) log' o →
      Ideal P log (.eval n) log' o
  | exprSelf {log n c a} : P.at n = .expr c a → (∀ h, P.at c ≠ .func h) → Ideal P log (.eval n) log (.val c)
  | code {log n a d log' o} : P.at n = .code a d → Ideal P log (.list n n 0) log' o → Ideal P log (.eval n) log' o
  | next {log h m cur l1 v l2 o} : Ideal P log (.eval (P.car m)) l1 (.val v) → P.truth (P.cdr m) = true →
      Ideal P l1 (.list h (P.cdr m) v) l2 o → Ideal P log (.list h m cur) l2 o
  | last {log h m cur l1 v} : Ideal P log (.eval (P.car m)) l1 (.val v) → P.truth (P.cdr m) = false →
      Ideal P log (.list h m cur) l1 (.val v)
  | jump {log h m cur l1 k l2 o} : Ideal P log (.eval (P.car m)) l1 (.goto k) → OnSpine P h k →
      Ideal P l1 (.list h k cur) l2 o → Ideal P log (.list h m cur) l2 o
  | leave {log h m cur l1 k} : Ideal P log (.eval (P.car m)) l1 (.goto k) → ¬ OnSpine P h k →
      Ideal P log (.list h m cur) l1 (.goto k)
  | listRet {log h m cur l1} : Ideal P log (.eval (P.car m)) l1 .ret → Ideal P log (.list h m cur) l1 (.val cur)
  | listErr {log h m cur l1 e} : Ideal P log (.eval (P.car m)) l1 (.err e) → Ideal P log (.list h m cur) l1 (.err e)
  | answer {log v} : Ideal P log (.host (.answer v)) log (.val v)
  | goto {log n} : Ideal P log (.host (.goto n)) log (.goto n)
  | ret {log} : Ideal P log (.host .ret) log .ret
  | throw {log e} : Ideal P log (.host (.throw e)) log (.err e)
  | emit {log e k log' o} : Ideal P (log ++ [e]) (.host k) log' o → Ideal P log (.host (.emit e k)) log' o
  | look {log k log' o} : Ideal P log (.host (k log)) log' o → Ideal P log (.host (.look k)) log' o
  | hostEval {log n k l1 v l2 o} : Ideal P log (.eval n) l1 (.val v) → Ideal P l1 (.host (k v)) l2 o →
      Ideal P log (.host (.eval n k)) l2 o
  | hostStop {log n k l1 o} : Ideal P log (.eval n) l1 o → (∀ v, o ≠ .val v) → Ideal P log (.host (.eval n k)) l1 o

/-- The same, for runs in which no jump leaves a list, and a return comes only where an element of its list was answered
before and no other list was evaluated since.  `used` tells that a list was evaluated, `sure` that `cur` is the answer of the list evaluated
last of all. -/
inductive TameWhat where
  | eval (n : Ref)
  | list (head m : Ref) (cur : Ref) (sure : Bool)
  | host (h : Host)

/-- Without the mark. -/
def TameWhat.plain : TameWhat → What
  | .eval n => .eval n
  | .list h m c _ => .list h m c
  | .host h => .host h

/-- See `TameWhat`. -/
inductive Tame (P : Prog) : List Nat → TameWhat → List Nat → Out → Bool → Prop where
  | self {log n} : (∀ a d, P.at n ≠ .code a d) → (∀ c a, P.at n ≠ .expr c a) → Tame P log (.eval n) log (.val n) false
  | expr {log n c a h log' o u} : P.at n = .expr c a → P.at c = .func h → Tame P log (.host (h a)) log' o u →
      Tame P log (.eval n) log' o u
  | exprSelf {log n c a} : P.at n = .expr c a → (∀ h, P.at c ≠ .func h) → Tame P log (.eval n) log (.val c) false
  | code {log n a d log' o u} : P.at n = .code a d → Tame P log (.list n n 0 false) log' o u → Tame P log (.eval n) log' o true
  | next {log h m cur su l1 v u l2 o u'} : Tame P log (.eval (P.car m)) l1 (.val v) u → P.truth (P.cdr m) = true →
      Tame P l1 (.list h (P.cdr m) v true) l2 o u' → Tame P log (.list h m cur su) l2 o true
  | last {log h m cur su l1 v u} : Tame P log (.eval (P.car m)) l1 (.val v) u → P.truth (P.cdr m) = false →
      Tame P log (.list h m cur su) l1 (.val v) true
  | jump {log h m cur su l1 k u l2 o u'} : Tame P log (.eval (P.car m)) l1 (.goto k) u → OnSpine P h k →
      Tame P l1 (.list h k cur (su && !u)) l2 o u' → Tame P log (.list h m cur su) l2 o true
  | listRet {log h m cur l1} : Tame P log (.eval (P.car m)) l1 .ret false → Tame P log (.list h m cur true) l1 (.val cur) true
  | listErr {log h m cur su l1 e u} : Tame P log (.eval (P.car m)) l1 (.err e) u → Tame P log (.list h m cur su) l1 (.err e) true
  | answer {log v} : Tame P log (.host (.answer v)) log (.val v) false
  | goto {log n} : Tame P log (.host (.goto n)) log (.goto n) false
  | ret {log} : Tame P log (.host .ret) log .ret false
  | throw {log e} : Tame P log (.host (.throw e)) log (.err e) false
  | emit {log e k log' o u} : Tame P (log ++ [e]) (.host k) log' o u → Tame P log (.host (.emit e k)) log' o u
  | look {log k log' o u} : Tame P log (.host (k log)) log' o u → Tame P log (.host (.look k)) log' o u
  | hostEval {log n k l1 v u l2 o u'} : Tame P log (.eval n) l1 (.val v) u → Tame P l1 (.host (k v)) l2 o u' →
      Tame P log (.host (.eval n k)) l2 o (u || u')
  | hostStop {log n k l1 o u} : Tame P log (.eval n) l1 o u → (∀ v, o ≠ .val v) → Tame P log (.host (.eval n k)) l1 o u

/-- The run ends with `r` when enough steps are allowed. -/
def Ends (P : Prog) (s : State) (t : Task) (r : Res) : Prop := ∃ F, ∀ fuel ≥ F, run P fuel s t = r

/-- The run never ends. -/
def NeverEnds (P : Prog) (s : State) (t : Task) : Prop := ∀ fuel, run P fuel s t = .cutOff

/-- The outcome seen by the caller. -/
def Shows : Res → List Nat → Out → Prop
  | .val s v, log, o => s.log = log ∧ o = .val v
  | .goto s n, log, o => s.log = log ∧ o = .goto n
  | .ret s, log, o => s.log = log ∧ o = .ret
  | .err s e, log, o => s.log = log ∧ o = .err e
  | .cutOff, _, _ => False

end ELC.Eval.Spec
