import Verif.Convert.Model
import Verif.Numeral.Model
/-!
The text of big integers with the library's own arithmetic.

F/numerical_representation/to_string/_body.hpp:150-188 (`to_string_base` of a `ubigint`) and 616-645
(`from_string_get_unsigneded` of a `ubigint`).  The area Numeral models the same functions with exact numbers; here numbers
are digit arrays and every operation is the one of F/bignum/bignum/ubigint.hpp as modelled in Ubig, so that a wrong or
undefined step shows.  `w` is the width of a digit: 32 in a release build, 8 in a debug build (ubigint.hpp:36-43).
`none`: something undefined happens, or the recursion is deeper than the given depth.
-/
namespace ELC.Print
open ELC.Ubig (Digits)
open ELC.Numeral (Rep State)

/-- _body.hpp:164-170: the split point of a number of `size` digits; `base` is squared while it has less than a third of
the digits (`fast_size_method`, ubigint.hpp:1234-1236; `operator*=`, ubigint.hpp:1048-1052). -/
def splitBase (w size : Nat) : Nat → Digits → Nat → Option (Digits × Nat)
  | 0, _, _ => none
  | fuel + 1, base, len =>
    if base.length * 3 < size then (Ubig.mul w base base).bind fun b => splitBase w size fuel b (len * 2)
    else some (base, len)

/-- _body.hpp:162-170: `T base{radix}` and the loop.  `splitBase_fuel` shows that the bound on the rounds is enough. -/
def splitOf (w radix size : Nat) : Option (Digits × Nat) :=
  (Ubig.ofNative w 64 radix).bind fun b => splitBase w size (w * size + 1) b 1

/-- _body.hpp:150-176 `to_string_base` of a `ubigint`, at most `depth` calls deep.  `cut` is the floating point expression
of the division (see Ubig). -/
def printBig (R : Rep) (w : Nat) (cut : Nat → Nat) : Nat → Digits → Option (List Nat)
  | 0, _ => none
  | depth + 1, num =>
    if Convert.ubigSafe w ⟨false, 3⟩ num then Numeral.toStringNative R (Ubig.convertTo w 64 num)
    else
      (splitOf w R.radix num.length).bind fun bl =>
        (Ubig.divmod w cut num bl.1).bind fun hl =>
          (printBig R w cut depth hl.1).bind fun high =>
            (printBig R w cut depth hl.2).map fun low => high ++ Numeral.padLeft bl.2 (R.getChar 0) low

/-- _body.hpp:625-631: the split point of a text of `size` characters. -/
def splitText (w size : Nat) : Nat → Digits → Nat → Option (Digits × Nat)
  | 0, _, _ => none
  | fuel + 1, base, len =>
    if len * 3 < size then (Ubig.mul w base base).bind fun b => splitText w size fuel b (len * 2)
    else some (base, len)

/-- _body.hpp:624-641 for a long text and 643-660 for one of at most `thr` characters, which is read into a `size_t`; at
most `depth` calls deep. -/
def readBig (R : Rep) (w thr : Nat) : Nat → List Nat → State → Option (Digits × State)
  | 0, _, _ => none
  | depth + 1, s, st =>
    if thr < s.length then
      (Ubig.ofNative w 64 R.radix).bind fun b0 =>
        (splitText w s.length s.length b0 1).bind fun bl =>
          if s.length < bl.2 then none
          else
            (readBig R w thr depth (s.take (s.length - bl.2)) st).bind fun h =>
              if h.2.error then some ([], h.2)
              else
                (readBig R w thr depth (s.drop (s.length - bl.2)) h.2).bind fun l =>
                  if l.2.error then some ([], l.2)
                  else (Ubig.mul w h.1 bl.1).bind fun p => (Ubig.add w p l.1).map fun r => (r, l.2)
    else
      let r := Numeral.fromNative R 64 s st
      (Ubig.ofNative w 64 r.1).map fun d => (d, r.2)

/-- The text read with a depth that is always enough (`readBig_fuel`). -/
def read (R : Rep) (w thr : Nat) (s : List Nat) (st : State) : Option (Digits × State) :=
  readBig R w thr (s.length + 1) s st

end ELC.Print
