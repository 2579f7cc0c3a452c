/-!
Evaluation of nodes: `F/core/nodes/code_list.hpp`, `F/core/nodes/expr.hpp`, `F/core/nodes/base_binary_function_node.hpp` and the
defaults of `F/core/base_def/node_like_using_value_func_defs.hpp`.

The nodes of a program are numbered; node 0 is `the_void`.  While a program runs its nodes stay as they are: programs that
change their own lists are not modelled.  An answer is the node that the value reads when it is given; how values share
their data is area Val, of which one thing shows here: the answers of all code lists lie in one shared place (`shared`).
Functions of the host are trees of what they do (`Host`).
-/
namespace ELC.Eval

/-- The number of a node. -/
abbrev Ref := Nat

/-- What a function of the host does, step by step: answer with a node, jump (`throw goto_t`), return (`throw return_t`), throw
something else, do something that can be seen from outside, look at what was done so far, evaluate a node and go on with
its answer (core_runtime_internal_helper.hpp:31-42, code_list.hpp:31-36). -/
inductive Host where
  | answer (v : Ref)
  | goto (target : Ref)
  | ret
  | throw (e : Nat)
  | emit (e : Nat) (k : Host)
  | look (k : List Nat → Host)
  | eval (n : Ref) (k : Ref → Host)

/-- The kinds of nodes, by what evaluation sees of them: binary nodes without indexing of their own and `t` (`atom`), `nil`, `the_void`,
functions (base_binary_function_node.hpp:31-71), pairs and common nodes with these entries at `t` and `nil` (`pair`), code
lists, expressions. -/
inductive Node where
  | atom
  | nil
  | void
  | func (h : Ref → Host)
  | pair (car cdr : Ref)
  | code (car cdr : Ref)
  | expr (car cdr : Ref)

/-- The nodes by number. -/
abbrev Prog := Ref → Node

/-- The node with this number; 0 is `the_void` (void.hpp:34-54). -/
def Prog.at (P : Prog) (n : Ref) : Node := if n = 0 then .void else P n

/-- cons.hpp:31-33 `car_of`: `arec(t)` (cons.hpp:65-68, binary_node_t.hpp:93-98, base_constexpr.hpp:41,
base_binary_function_node.hpp:67). -/
def Prog.car (P : Prog) (n : Ref) : Ref :=
  match P.at n with
  | .pair a _ | .code a _ | .expr a _ => a
  | .func _ => 0
  | .atom | .nil | .void => n

/-- cons.hpp:34-36 `cdr_of`: `arec(nil)`. -/
def Prog.cdr (P : Prog) (n : Ref) : Ref :=
  match P.at n with
  | .pair _ d | .code _ d | .expr _ d => d
  | .func _ => 0
  | .atom | .nil | .void => n

/-- node_like.hpp:72, nil.hpp:38, void.hpp:49 `operator logical_bool`, made a `bool` (base_ptr_t.hpp:210, logical_bool.hpp:57):
`nil` is false, `the_void` is neither true nor false, which counts as false. -/
def Prog.truth (P : Prog) (n : Ref) : Bool :=
  match P.at n with
  | .nil | .void => false
  | _ => true

/-- What a run can see and change: the place where the answers of code lists lie, and the things done so far. -/
structure State where
  shared : Ref
  log : List Nat
deriving DecidableEq, Repr

/-- How a run ends: with an answer, with one of the exceptions, or not within the steps allowed. -/
inductive Res where
  | val (s : State) (v : Ref)
  | goto (s : State) (n : Ref)
  | ret (s : State)
  | err (s : State) (e : Nat)
  | cutOff
deriving DecidableEq, Repr

/-- What is to be run: a node's `be_eval`, the loop of a code list from a given node on, a function of the host. -/
inductive Task where
  | eval (n : Ref)
  | list (n : Ref)
  | host (h : Host)

/-- `be_call`: functions run (base_binary_function_node.hpp:52), all other nodes answer with themselves
(node_like_using_value_func_defs.hpp:35-37). -/
def call (P : Prog) (c args : Ref) : Task :=
  match P.at c with
  | .func h => .host (h args)
  | _ => .host (.answer c)

/-- code_list.hpp:31-36 `eval`, 43-60 `code_list::be_eval` (`list`: the loop with `self` = the node), expr.hpp:39-41
`expr::be_eval`, node_like_using_value_func_defs.hpp:32-34 `node_like::be_eval`. -/
def run (P : Prog) : Nat → State → Task → Res
  | 0, _, _ => .cutOff
  | f + 1, s, .eval n =>
    match P.at n with
    | .code _ _ => run P f s (.list n)
    | .expr c a => run P f s (call P c a)
    | _ => .val s n
  | f + 1, s, .list n =>
    match run P f s (.eval (P.car n)) with
    | .val s v =>
      if P.truth (P.cdr n) then run P f { s with shared := v } (.list (P.cdr n))
      else .val { s with shared := v } v
    | .goto s m => run P f s (.list m)
    | .ret s => .val s s.shared
    | r => r
  | f + 1, s, .host h =>
    match h with
    | .answer v => .val s v
    | .goto n => .goto s n
    | .ret => .ret s
    | .throw e => .err s e
    | .emit e k => run P f { s with log := s.log ++ [e] } (.host k)
    | .look k => run P f s (.host (k s.log))
    | .eval n k =>
      match run P f s (.eval n) with
      | .val s v => run P f s (.host (k v))
      | r => r

/-- expr.hpp:39-41 called by a program: `(*node)(args...)` (node_like.hpp:75-76). -/
def callNode (P : Prog) (fuel : Nat) (s : State) (c args : Ref) : Res := run P fuel s (call P c args)

end ELC.Eval
