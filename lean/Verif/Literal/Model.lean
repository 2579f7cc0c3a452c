import Verif.Ubig.Model
import Verif.Ubig.Spec
import Verif.Numeral.Model
/-!
Literals of the big number types: `F/base_defs/literal_support.hpp` and `F/bignum/bignum/literal.hpp`.
A literal is the list of its characters.  `none` stands for a literal the compiler rejects (a `static_assert`), or for
undefined behaviour of the arithmetic.  `size_t` has 64 bits.
-/
namespace ELC.Literal
open ELC.Bigfloat

/-- literal_support.hpp:32-46 `hexval`, ASCII; `uint8_t`. -/
def hexval (c : Nat) : Nat :=
  if c ≥ 97 then (c + 10 - 97) % 256 else if c ≥ 65 then (c + 10 - 65) % 256 else (c - 48) % 256

/-- literal_support.hpp:90-94 `char_checker`. -/
def charOk (base c : Nat) : Bool :=
  ((48 ≤ c && c ≤ 57) || (97 ≤ c && c ≤ 102) || (65 ≤ c && c ≤ 70)) && decide (hexval c < base)

/-- literal_support.hpp:61-63, the members of `fast_integer_iterator`; `digits` is the `ubigint` it refers to. -/
structure Acc where
  digits : Ubig.Digits
  block : Nat
  scale : Nat

/-- literal_support.hpp:69 and 78 `_val=move(_val)*_scale+_var_block`: `operator*=` with `ubigint(_scale)`
(ubigint.hpp:1146-1148, 1048-1052) and `+=` of a native number (ubigint.hpp:1138-1140, 1025-1029). -/
def flush (w : Nat) (a : Acc) : Option Ubig.Digits :=
  (Ubig.ofNative w 64 a.scale).bind fun s =>
    (Ubig.mul w a.digits s).bind fun p => Ubig.addNative w 64 p a.block

/-- literal_support.hpp:66-76 `fast_integer_iterator::operator()`. -/
def step (w base : Nat) (a : Acc) (c : Nat) : Option Acc :=
  let newScale := a.scale * base % 2 ^ 64
  if a.scale > newScale then (flush w a).map fun v => ⟨v, hexval c, base⟩
  else some ⟨a.digits, (a.block * base + hexval c) % 2 ^ 64, newScale⟩

/-- literal_support.hpp:100-107 `eval_impl` of an unsigned integer literal. -/
def run (w base : Nat) : List Nat → Acc → Option Acc
  | [], a => some a
  | c :: cs, a =>
    if c = 39 then run w base cs a
    else if charOk base c then (step w base a c).bind (run w base cs) else none

/-- literal_support.hpp:109-118 `do_eval`, the destructor of the iterator included. -/
def doEval (w base : Nat) (cs : List Nat) : Option Ubig.Digits :=
  (run w base cs ⟨[], 0, 1⟩).bind (flush w)

/-- literal_support.hpp:120-159 `eval_differ` and `eval_with_base`. -/
def evalWithBase (w d : Nat) : List Nat → Option Ubig.Digits
  | 48 :: 120 :: cs => doEval w 16 cs
  | 48 :: 88 :: cs => doEval w 16 cs
  | 48 :: 98 :: cs => doEval w 2 cs
  | 48 :: 66 :: cs => doEval w 2 cs
  | 48 :: cs => doEval w 8 cs
  | cs => doEval w d cs

/-- literal.hpp:33-35 `operator""_ubigint`, literal_support.hpp:161-163 `eval`. -/
def evalUbigint (w : Nat) (cs : List Nat) : Option Ubig.Digits := evalWithBase w 10 cs

/-- literal_support.hpp:167-188 `signed_integer_literal_evaler`.  The `bigint` is taken as the integer its digits
stand for. -/
def evalSigned (w d : Nat) : List Nat → Option Int
  | 45 :: cs => (evalWithBase w d cs).map fun r => -(Ubig.Spec.val w r : Int)
  | cs => (evalWithBase w d cs).map fun r => (Ubig.Spec.val w r : Int)

/-- literal_support.hpp:192-213 `eval_impl` of a fraction literal; `pointed` is the template argument.  The exponent
is a `bigint`, taken as an integer. -/
def runFloat (w base expChar : Nat) : Bool → List Nat → Acc → Int → Option (Acc × Int)
  | _, [], a, e => some (a, e)
  | pointed, c :: cs, a, e =>
    if c = 46 then (if pointed then none else runFloat w base expChar true cs a e)
    else if c = expChar ∨ c + 32 = expChar then (evalSigned w base cs).map fun z => (a, e + z)
    else if c = 39 then runFloat w base expChar pointed cs a e
    else if charOk base c then
      (step w base a c).bind fun a => runFloat w base expChar pointed cs a (if pointed then e - 1 else e)
    else none

/-- literal_support.hpp:215-226 `do_eval` of a fraction literal. -/
def doEvalFloat (w base expChar : Nat) (cs : List Nat) : Option UFrac :=
  (runFloat w base expChar false cs ⟨[], 0, 1⟩ 0).bind fun r =>
    (flush w r.1).map fun v =>
      UFrac.mulAssign false (UFrac.ofNat (Ubig.Spec.val w v)) (Numeral.powFrac base r.2)

/-- literal_support.hpp:228-254 and literal.hpp:41-48 `operator""_ubigfloat`. -/
def evalUbigfloat (w : Nat) : List Nat → Option UFrac
  | 48 :: 120 :: cs => doEvalFloat w 16 112 cs
  | 48 :: 88 :: cs => doEvalFloat w 16 112 cs
  | cs => doEvalFloat w 10 101 cs

end ELC.Literal
